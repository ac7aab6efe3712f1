import Verif.Lemmas.EditSearch
import Verif.Lemmas.EditCost
import Verif.Props.OneEdit
/-!
# What any number of edits costs (C100)
-/
namespace Smdiff
open Spec

/-- The zones of the pieces in the new file. -/
def zonesOf (ps : List Piece) : List (Nat × Nat) := ps.map fun p => (p.inNew, p.length)

theorem zones_changed (new : Bytes) : ∀ ps : List Piece,
    (List.range new.length).countP (fun i => !inZone (zonesOf ps) i) ≤ changed ps new + ps.length := by
  intro ps
  have h : ∀ ps : List Piece, ∃ g : Nat → Bool, (∀ n, (List.range n).countP g ≤ ps.length) ∧
      ∀ i, kept ps i = true → inZone (zonesOf ps) i = true ∨ g i = true := by
    intro ps
    induction ps with
    | nil => exact ⟨fun _ => false, fun n => by simp, fun i h => by simp [kept] at h⟩
    | cons p ps ih =>
      obtain ⟨g, g1, g2⟩ := ih
      refine ⟨fun i => decide (p.inNew ≤ i ∧ i < p.inNew + 1) || g i, fun n => ?_, fun i hi => ?_⟩
      · have h1 := countP_or_le (fun i => decide (p.inNew ≤ i ∧ i < p.inNew + 1)) g (List.range n)
        have h2 := countP_zone p.inNew 1 n
        have h3 := g1 n
        rw [List.length_cons]
        omega
      · have hcons : inZone (zonesOf (p :: ps)) i
            = (decide (p.inNew + 1 ≤ i ∧ i < p.inNew + p.length) || inZone (zonesOf ps) i) := by
          simp [inZone, zonesOf]
        simp only [kept, List.any_cons, Bool.or_eq_true, decide_eq_true_eq] at hi
        rw [hcons]
        simp only [Bool.or_eq_true, decide_eq_true_eq]
        rcases hi with hi | hi
        · omega
        · rcases g2 i hi with q | q
          · exact Or.inl (Or.inr q)
          · exact Or.inr (Or.inr q)
  obtain ⟨g, g1, g2⟩ := h ps
  have h1 := countP_or_le (fun i => !kept ps i) g (List.range new.length)
  have h2 := g1 new.length
  have h3 : (List.range new.length).countP (fun i => !inZone (zonesOf ps) i)
      ≤ (List.range new.length).countP (fun i => !kept ps i || g i) := by
    apply List.countP_mono_left
    intro i _ hi
    cases hk : kept ps i with
    | false => rfl
    | true =>
      rcases g2 i hk with q | q
      · rw [q] at hi; cases hi
      · simp [q]
  unfold changed
  omega

/-- What the search finds of a piece that can be recognised. -/
theorem piece_found (dbg : Bool) (cfg : EncoderConfig) (c : SrcMatcherConfig)
    (hcfg : cfg.matchSrc = some c) (old new : Bytes) (hc : c.maxSrcWinSize.getD (2 ^ 26) ≤ 2 ^ 63)
    (hs : old.length ≤ max (c.maxSrcWinSize.getD (2 ^ 26)) (2 ^ 20))
    (hs2 : old.length < 2 ^ 63) (ht : new.length < 2 ^ 63)
    (hn : cfg.naiveTests = none ∨ ¬ old <+: new ∧ ¬ old <:+ new)
    (hlazy : 10 ≤ cfg.lazyEscapeLen.getD 90) :
    ∃ k, 2 ≤ k ∧ (k = 2 ∨ 2 ^ k * max c.lStep 1 ≤ old.length) ∧ old.length < 2 ^ (k + 2) * max c.lStep 1 ∧
      ∀ p, Recognised (max c.lStep 1) old new p →
      (∀ q, q < p.inOld + p.mark → Placed (max c.lStep 1) old.length q →
        slotOf k (window old q 9) ≠ slotOf k (window old (p.inOld + p.mark) 9)) →
      ∀ iops, encodeInner dbg (walkFuel cfg.matchTrgt new)
          ⟨cfg.matchTrgt, cfg.matchSrc, cfg.lazyEscapeLen, cfg.naiveTests⟩ old new = .ok iops →
      FoundPiece p iops := by
  have hnv := naive_misses hn
  have hwin : 0 < max (c.maxSrcWinSize.getD (2 ^ 26)) (2 ^ 20) / 2 := by omega
  by_cases h9 : 9 < new.length
  · obtain ⟨k, k1, k2, k3, key⟩ := C93_exact dbg (walkFuel cfg.matchTrgt new)
      ⟨cfg.matchTrgt, cfg.matchSrc, cfg.lazyEscapeLen, cfg.naiveTests⟩ c old new hcfg
      (by unfold walkFuel; omega) hc hs hs2 (by rw [hnv]; exact hwin) ht (by rw [hnv]; simp only; omega)
    rw [hnv] at key
    simp only at key
    refine ⟨k, k1, k2, k3, fun z hd hcl iops e => ?_⟩
    have hroom := hd.room
    have hnew := hd.endNew
    have hw : window old (z.inOld + z.mark) 9 = window new (z.inNew + z.mark) 9 := by
      apply window_same
      intro i hi
      rw [Nat.add_assoc, Nat.add_assoc]
      exact hd.same _ (by omega)
    refine encodeInner_piece (cfg := ⟨cfg.matchTrgt, cfg.matchSrc, cfg.lazyEscapeLen, cfg.naiveTests⟩) hcfg hnv hd hlazy
      ?_ ?_ e
    · intro j st hr hst h9' m hm p pre post hf
      rcases key j st hr hst h9' m hm with ⟨p0, pre0, post0, g1, g2, g3, g4⟩ | ⟨g, -⟩
      · rw [g1] at hf
        simp only [Outcome.ok.injEq, Option.some.injEq, Prod.mk.injEq] at hf
        obtain ⟨rfl, rfl, rfl⟩ := hf
        refine ⟨?_, g4⟩
        rcases Nat.lt_or_ge post0 9 with hlt | hge
        · exfalso
          have h1 : p0 + 9 ≤ old.length := by
            have h2 := g2.1.2
            split at h2
            · omega
            · obtain ⟨x, -, h3, h4⟩ := h2; omega
          rcases g4.rightEnd with h | h | h
          · omega
          · omega
          · apply h
            have := congrArg (·[post0]?) g3
            simpa only [window, List.getElem?_take_of_lt hlt, List.getElem?_drop] using this
        · exact hge
      · rw [g] at hf; simp at hf
    · intro j st hr hst hcur m hm
      rcases key j st hr hst (by omega) m hm with ⟨p0, pre0, post0, g1, -⟩ | ⟨-, g⟩
      · exact ⟨p0, pre0, post0, g1⟩
      · exfalso
        refine g (z.inOld + z.mark) ⟨hd.placed, by rw [hcur, hw], fun q hq hslot => ?_⟩ (by rw [hcur, hw])
        rcases Nat.lt_or_ge q (z.inOld + z.mark) with h | h
        · exfalso
          rw [hcur, ← hw] at hslot
          exact hcl q h hq hslot
        · exact h
  · obtain ⟨k1, k2, k3⟩ := buckets_range (n := old.length) (w := old.length) (l := max c.lStep 1)
      (by omega) (by omega) hs2
    refine ⟨_, k1, k2, k3, fun z hd => ?_⟩
    have := hd.room
    have := hd.endNew
    omega

/-- **C100.** Any number of edits.  Without secondary compression, with source matching, a source that fits into the
window, and no naive test that applies: take any list of pieces of the source that are in the target, in whatever order,
that can be recognised, and before whose marks nothing was entered into the same bucket.  The patch has at most thirteen
bytes for each byte of the target that belongs to none of them, 733 for each piece, 41 for each 65535 bytes of the target,
and 14, whatever else the search finds. -/
theorem C100_edits (dbg : Bool) (cdc : Codec) (cfg : EncoderConfig) (c : SrcMatcherConfig) (hcomp : cfg.secComp = none)
    (hcfg : cfg.matchSrc = some c) (old new : Bytes) (hc : c.maxSrcWinSize.getD (2 ^ 26) ≤ 2 ^ 63)
    (hs : old.length ≤ max (c.maxSrcWinSize.getD (2 ^ 26)) (2 ^ 20))
    (hs2 : old.length < 2 ^ 63) (ht : new.length < 2 ^ 63)
    (hn : cfg.naiveTests = none ∨ ¬ old <+: new ∧ ¬ old <:+ new)
    (hlazy : 10 ≤ cfg.lazyEscapeLen.getD 90) :
    ∃ k, 2 ≤ k ∧ (k = 2 ∨ 2 ^ k * max c.lStep 1 ≤ old.length) ∧ old.length < 2 ^ (k + 2) * max c.lStep 1 ∧
      ∀ ps : List Piece, (∀ p ∈ ps, Recognised (max c.lStep 1) old new p ∧
        ∀ q, q < p.inOld + p.mark → Placed (max c.lStep 1) old.length q →
          slotOf k (window old q 9) ≠ slotOf k (window old (p.inOld + p.mark) 9)) →
      ∀ w w' : Bytes, encode dbg cdc cfg (some old) new w = (.ok (), w') →
      ∃ patch, w' = w ++ patch ∧
        patch.length ≤ 13 * changed ps new + 733 * ps.length + 41 * (new.length / 65535) + 14 := by
  obtain ⟨k, k1, k2, k3, key⟩ := piece_found dbg cfg c hcfg old new hc hs hs2 ht hn hlazy
  refine ⟨k, k1, k2, k3, fun ps hps w w' e => ?_⟩
  obtain ⟨patch, ops, h1, h2, h3⟩ := encode_cost hcomp (by rw [Option.getD_some]; omega) ht e
  refine ⟨patch, h1, ?_⟩
  unfold encodeOps at h2
  rw [Option.getD_some, Outcome.bind_eq_ok] at h2
  obtain ⟨iops, e1, h2⟩ := h2
  have hcand := encodeInner_candidates e1
  have h4 := translate_zones (some old) (by rw [Option.getD_some]; omega) (by omega) hcand (zs := zonesOf ps) (by
    intro z hz
    obtain ⟨p, hp, rfl⟩ := List.mem_map.1 hz
    exact key p (hps p hp).1 (hps p hp).2 iops e1) h2
  have h5 := zones_changed new ps
  rw [show (zonesOf ps).length = ps.length by simp [zonesOf]] at h4
  omega

/-! ## An example -/

/-- Eighty-four bytes. -/
def swapOld : Bytes := (List.range 84).map fun i => UInt8.ofNat ((i * i + 2 * i) % 251)

/-- The two halves in the other order, with three bytes between them. -/
def swapNew : Bytes := swapOld.drop 40 ++ [250, 249, 248] ++ swapOld.take 40

/-- The settings: one entry in the table for every eighteen bytes. -/
def swapConfig : EncoderConfig := { EncoderConfig.default with matchSrc := some ⟨18, none⟩ }

/-- The two halves. -/
def swapPieces : List Piece := [⟨0, 47, 40, 18⟩, ⟨40, 0, 44, 14⟩]

set_option maxRecDepth 100000 in
theorem swap_recognised : ∀ p ∈ swapPieces, Recognised 18 swapOld swapNew p := by
  have l1 : swapOld.length = 84 := by decide
  have l2 : swapNew.length = 87 := by decide
  have hf : ∀ p ∈ swapPieces, (p.inOld + p.length ≤ 84 ∧ p.inNew + p.length ≤ 87 ∧ 8 ≤ p.mark ∧ p.mark + 10 ≤ p.length ∧
      p.mark ≤ 18) ∧
      (∀ i < p.length, swapOld[p.inOld + i]? = swapNew[p.inNew + i]?) ∧
      ((p.inOld + p.mark) % 18 = 0 ∧ p.inOld + p.mark + 18 + 9 ≤ 84) ∧
      swapNew[p.inNew + p.mark + 0]? ≠ swapNew[p.inNew + p.mark + 1]? ∧
      (∀ i ≤ p.mark, ∀ q ≤ 75, window swapOld q 9 = window swapNew (p.inNew + i) 9 → q = p.inOld + i) ∧
      (∀ i ≤ p.mark, ∀ q ≤ 78, window swapNew q 9 = window swapNew (p.inNew + i) 9 → q = p.inNew + i) := by
    decide +kernel
  intro p hp
  obtain ⟨⟨h1, h2, h3, h4, h5⟩, h6, h7, h8, h9, h10⟩ := hf p hp
  refine ⟨h6, by omega, by omega, h3, h4, ⟨h7.1, ?_⟩, ⟨0, 1, by decide, by decide, h8⟩, ?_, ?_⟩
  · rw [if_pos (by decide), l1]; exact h7.2
  · intro i hi
    exact only_there (by omega) fun q hq => h9 i hi q (by omega)
  · intro i hi
    exact only_there (by omega) fun q hq => h10 i hi q (by omega)

theorem swap_buckets : ∀ p ∈ swapPieces, ∀ q, q < p.inOld + p.mark → Placed 18 swapOld.length q →
    slotOf 2 (window swapOld q 9) ≠ slotOf 2 (window swapOld (p.inOld + p.mark) 9) := by
  have h : ∀ p ∈ swapPieces, p.inOld + p.mark ≤ 54 ∧ ∀ j < 3, 18 * j < p.inOld + p.mark →
      slotOf 2 (window swapOld (18 * j) 9) ≠ slotOf 2 (window swapOld (p.inOld + p.mark) 9) := by decide +kernel
  intro p hp q hq hpl
  obtain ⟨h1, h2⟩ := h p hp
  have hm := hpl.1
  have := h2 (q / 18) (by omega) (by omega)
  rwa [show 18 * (q / 18) = q by omega] at this

set_option maxRecDepth 100000 in
/-- The hypotheses are met. -/
example : ∃ patch : Bytes, (encode true storedCodec swapConfig (some swapOld) swapNew ([] : Bytes)).2 = [] ++ patch ∧
    patch.length ≤ 13 * changed swapPieces swapNew + 733 * swapPieces.length + 41 * (swapNew.length / 65535) + 14 := by
  obtain ⟨k, k1, k2, k3, key⟩ := C100_edits true storedCodec swapConfig ⟨18, none⟩ rfl rfl swapOld swapNew (by decide)
    (by decide) (by decide) (by decide) (Or.inl rfl) (by decide)
  have e4 : swapOld.length = 84 := by decide
  have e6 : max (18 : Nat) 1 = 18 := rfl
  simp only [e6] at key k2
  rw [e4] at k2
  have hk : k = 2 := by
    rcases k2 with h | h
    · exact h
    · rcases Nat.lt_or_ge 2 k with h2 | h2
      · have := Nat.pow_le_pow_right (show 0 < 2 by decide) (show 3 ≤ k from h2)
        omega
      · omega
  subst hk
  exact key swapPieces (fun p hp => ⟨swap_recognised p hp, swap_buckets p hp⟩) [] _ (ok_of_fst (by decide +kernel))

/-- Three bytes belong to none of the pieces. -/
example : changed swapPieces swapNew = 3 := by decide +kernel

set_option maxRecDepth 100000 in
/-- The patch: one byte, a Copy of forty-three, an Add of three, and a Copy of forty. -/
example : encode true storedCodec swapConfig (some swapOld) swapNew ([] : Bytes)
    = (.ok (), [0, 4, 87, 193, 174, 43, 82, 131, 250, 249, 248, 40, 81]) := by
  decide +kernel

end Smdiff
