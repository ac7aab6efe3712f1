import Mathlib.Data.List.Chain
import Verif.SpecSettled
import Verif.Props.Pairs
/-!
# Lemmas on operations that transcoding leaves alone
-/
namespace Smdiff
open Spec

theorem chain_tail {R : Op → Op → Prop} {x : Op} {l : List Op} (h : List.IsChain R (x :: l)) : List.IsChain R l := by
  cases l with
  | nil => simp
  | cons y l => exact (List.isChain_cons_cons.1 h).2

theorem literal_stays {a : Bytes} (h1 : 2 ≤ a.length) (h2 : a.length ≤ 65535) : literal a = [.add a] := by
  rw [Transcoder.literal_long h1, if_pos h2]

theorem repeated_stays {n m : UInt8} {b : UInt8} (h : n = 62) (hm : m.toNat ≤ 62) (hm1 : 1 ≤ m.toNat) :
    repeated b (n.toNat + m.toNat) = [.run b n, .run b m] := by
  subst h
  unfold repeated
  rw [if_neg (by show ¬ (62 + m.toNat ≤ 62); omega)]
  rw [show (62 : UInt8).toNat + m.toNat - 62 = m.toNat by show 62 + m.toNat - 62 = _; omega, UInt8.ofNat_toNat]

theorem pairwise_settled : ∀ (ops : List Op), (∀ op ∈ ops, Legal op) → Settled ops → pairwise ops = ops := by
  intro ops
  induction ops using pairwise.induct with
  | case1 a b rest ih =>
    intro hl h
    obtain ⟨h1, h2⟩ := h
    have hn : a.length = 65535 := (List.isChain_cons_cons.1 h1).1
    rw [pairwise, if_neg (by omega), literal_stays (h2 a (by simp)) (by omega),
      literal_stays (h2 b (by simp)) (hl (.add b) (by simp)),
      ih (fun op ho => hl op (by simp [ho])) ⟨chain_tail (chain_tail h1), fun bs hb => h2 bs (by simp [hb])⟩]
    rfl
  | case2 b n c m rest ih =>
    intro hl h
    obtain ⟨h1, h2⟩ := h
    have hn : b = c → n = 62 := (List.isChain_cons_cons.1 h1).1
    have hm := hl (.run c m) (by simp)
    rw [pairwise, ih (fun op ho => hl op (by simp [ho])) ⟨chain_tail (chain_tail h1), fun bs hb => h2 bs (by simp [hb])⟩]
    split
    · rename_i e
      subst e
      rw [repeated_stays (hn rfl) hm.2 hm.1]
      rfl
    · rfl
  | case3 a rest h ih =>
    intro hl h1
    rw [pairwise.eq_3 _ _ (by simpa using h), ih (fun op ho => hl op (by simp [ho]))
      ⟨chain_tail h1.1, fun bs hb => h1.2 bs (by simp [hb])⟩,
      literal_stays (h1.2 a (by simp)) (show a.length ≤ 65535 from hl (.add a) (by simp))]
    rfl
  | case4 op rest g1 g2 g3 ih =>
    intro hl h1
    rw [pairwise.eq_4 _ _ (by simpa using g1) (by simpa using g2) (by simpa using g3), ih (fun op ho => hl op (by simp [ho]))
      ⟨chain_tail h1.1, fun bs hb => h1.2 bs (by simp [hb])⟩]
  | case5 => intros; rfl

/-- Neighbouring Adds of which the first is full. -/
def AddsFull (x y : Op) : Prop := ∀ a b, x = .add a → y = .add b → a.length = 65535

theorem addChunks_chain : ∀ (fuel : Nat) (bs : Bytes), List.IsChain AddsFull (addChunks fuel bs) := by
  intro fuel
  induction fuel with
  | zero => intro bs; simp [addChunks]
  | succ fuel ih =>
    intro bs
    rw [addChunks]
    split
    · simp
    · have hi := ih (bs.drop MAX_INST_SIZE)
      cases hc : addChunks fuel (bs.drop MAX_INST_SIZE) with
      | nil => simp
      | cons y l =>
        rw [hc] at hi
        refine List.isChain_cons_cons.2 ⟨?_, hi⟩
        intro a b ha _
        cases ha
        have : bs.drop MAX_INST_SIZE ≠ [] := by
          intro h
          rw [h] at hc
          cases fuel <;> simp [addChunks] at hc
        rw [List.length_take]
        have : 0 < (bs.drop MAX_INST_SIZE).length := List.length_pos_iff.2 this
        rw [List.length_drop] at this
        have hM : MAX_INST_SIZE = 65535 := rfl
        omega

theorem makeAddOps_chain (bs : Bytes) : List.IsChain AddsFull (makeAddOps bs) := by
  unfold makeAddOps
  split
  · simp
  · exact addChunks_chain _ _

/-- No Add among them. -/
def NoAdds (ops : List Op) : Prop := ∀ bs, Op.add bs ∉ ops

theorem NoAdds.chain {ops : List Op} (h : NoAdds ops) : List.IsChain AddsFull ops := by
  induction ops with
  | nil => simp
  | cons x l ih =>
    have hi := ih (fun bs hb => h bs (by simp [hb]))
    cases l with
    | nil => simp
    | cons y l => exact List.isChain_cons_cons.2 ⟨fun a b ha _ => absurd (by simp [ha]) (h a), hi⟩

theorem copyChunks_noAdds (src : CopySrc) : ∀ (fuel : Nat) (a : UInt64) (n : Nat), NoAdds (copyChunks src fuel a n) := by
  intro fuel
  induction fuel with
  | zero => intro a n bs h; simp [copyChunks] at h
  | succ fuel ih =>
    intro a n bs h
    rw [copyChunks] at h
    split at h
    · simp at h
    · simp only [List.mem_cons, reduceCtorEq, false_or] at h
      exact ih _ _ bs h

theorem runChunks_noAdds (b : UInt8) : ∀ (fuel n : Nat), NoAdds (runChunks b fuel n) := by
  intro fuel
  induction fuel with
  | zero => intro n bs h; simp [runChunks] at h
  | succ fuel ih =>
    intro n bs h
    rw [runChunks] at h
    split at h
    · simp at h
    · simp only [List.mem_cons, reduceCtorEq, false_or] at h
      exact ih _ bs h

theorem runCopies_noAdds (s : Nat) : ∀ (fuel m n : Nat), NoAdds (runCopies s fuel m n) := by
  intro fuel
  induction fuel with
  | zero => intro m n bs h; simp [runCopies] at h
  | succ fuel ih =>
    intro m n bs h
    rw [runCopies] at h
    split at h
    · simp at h
    · simp only [List.mem_cons, reduceCtorEq, false_or] at h
      exact ih _ _ bs h

theorem candOps_noAdds {outPos : Nat} {op : InnerOp} {ops : List Op} (h : candOps outPos op = .ok ops) : NoAdds ops := by
  cases op with
  | matchSrc s l o => cases h; exact copyChunks_noAdds _ _ _ _
  | matchTrgt s l o =>
    simp only [candOps, Outcome.bind_eq_ok] at h
    obtain ⟨_, _, h⟩ := h
    cases h
    exact copyChunks_noAdds _ _ _ _
  | run b l o =>
    cases h
    unfold makeRunOps
    split
    · exact runChunks_noAdds _ _ _
    · intro bs h
      rw [List.mem_append] at h
      rcases h with h | h
      · simp at h
      · exact runCopies_noAdds _ _ _ _ bs h

theorem candOps_ne {outPos : Nat} {op : InnerOp} {ops : List Op} (hl : 0 < op.len) (h : candOps outPos op = .ok ops) :
    ops ≠ [] := by
  have hc : ∀ s a n, 0 < n → copyChunks s (n / MAX_INST_SIZE + 1) a n ≠ [] := by
    intro s a n hn
    rw [copyChunks, if_neg (by omega)]
    simp
  cases op with
  | matchSrc s l o => cases h; exact hc _ _ _ hl
  | matchTrgt s l o =>
    simp only [candOps, Outcome.bind_eq_ok] at h
    obtain ⟨_, _, h⟩ := h
    cases h
    exact hc _ _ _ hl
  | run b l o =>
    cases h
    have hl : 0 < l := hl
    unfold makeRunOps
    split
    · rw [runChunks, if_neg (by omega)]
      simp
    · simp

theorem pass2_chain (trgt : Bytes) : ∀ (l : List InnerOp) (outPos : Nat) (ops : List Op), pass2 trgt outPos l = .ok ops →
    List.IsChain AddsFull ops := by
  intro l
  induction l with
  | nil =>
    intro outPos ops h
    rw [pass2] at h
    split at h <;> cases h
    · exact makeAddOps_chain _
    · simp
  | cons op l ih =>
    intro outPos ops h
    rw [pass2] at h
    split at h
    · rename_i hl
      simp only [Outcome.bind_eq_ok] at h
      obtain ⟨gap, h1, _, _, mid, h3, more, h4, h5⟩ := h
      cases h5
      have hgap : List.IsChain AddsFull gap := by
        unfold gapOps at h1
        split at h1
        · simp only [Outcome.bind_eq_ok] at h1
          obtain ⟨bs, _, h1⟩ := h1
          cases h1
          exact makeAddOps_chain _
        · cases h1; simp
      have hno := candOps_noAdds h3
      have hne := candOps_ne hl h3
      refine List.isChain_append.2 ⟨List.isChain_append.2 ⟨hgap, hno.chain, ?_⟩, ih _ _ h4, ?_⟩
      · intro x _ y hy a b _ hb
        exact absurd (hb ▸ List.mem_of_mem_head? hy) (hno b)
      · intro x hx y _ a b ha _
        rw [List.getLast?_append_of_ne_nil _ hne] at hx
        exact absurd (ha ▸ List.mem_of_mem_getLast? hx) (hno a)
    · exact ih _ _ h

theorem encodeOps_chain {dbg : Bool} {cfg : EncoderConfig} {dict : Option Bytes} {trgt : Bytes} {ops : List Op}
    (e : encodeOps dbg cfg dict trgt = .ok ops) : List.IsChain AddsFull ops := by
  simp only [encodeOps, Outcome.bind_eq_ok] at e
  obtain ⟨segs, e1, e2⟩ := e
  simp only [translateInnerOps, Outcome.bind_eq_ok] at e2
  obtain ⟨l, -, e2⟩ := e2
  exact pass2_chain _ _ _ _ e2

theorem settled_of {ops : List Op} (h1 : List.IsChain AddsFull ops) (h2 : RunsApart ops)
    (h3 : ∀ bs, Op.add bs ∈ ops → 2 ≤ bs.length) : Settled ops := by
  refine ⟨?_, h3⟩
  clear h3
  induction ops with
  | nil => simp
  | cons x l ih =>
    have hi := ih (chain_tail h1) (chain_tail h2)
    cases l with
    | nil => simp
    | cons y l =>
      refine List.isChain_cons_cons.2 ⟨?_, hi⟩
      have g1 := (List.isChain_cons_cons.1 h1).1
      have g2 := (List.isChain_cons_cons.1 h2).1
      rcases x with ⟨b, n⟩ | ⟨s, a, n⟩ | bs <;> rcases y with ⟨c, m⟩ | ⟨s', a', n'⟩ | bs' <;> try trivial
      · intro e; subst e; exact g2 _ _ _ rfl rfl
      · exact g1 _ _ rfl rfl

end Smdiff
