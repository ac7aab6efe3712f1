import Verif.Props.Index
import Mathlib.Data.Finset.Card
/-!
# C114: how much of the source is remembered
-/
namespace Smdiff
open Spec

/-- The number of buckets: the length of the source rounded down to a power of two (below it), divided by `l_step`
rounded up to a power of two - or four. -/
theorem buckets_pow {n l a b : Nat} (hl : 0 < l) (hn : n < 2 ^ 63) (ha : n ≤ 2 ^ (a + 1)) (hb : 2 ^ b < 2 * l) :
    2 ^ tableBits (nextPow2 n / 2 / l) ≤ max 4 (2 ^ a / 2 ^ b) := by
  have h1 : nextPow2 n / 2 ≤ 2 ^ a := by
    have := nextPow2_le ha
    rw [Nat.pow_succ] at this
    omega
  have h0 := halfPow_range n
  have hs : nextPow2 n / 2 / l < 2 ^ 63 := Nat.lt_of_le_of_lt (Nat.div_le_self _ _) (by omega)
  obtain ⟨-, h2, -⟩ := tableBits_range _ hs
  generalize tableBits (nextPow2 n / 2 / l) = k at *
  rcases h2 with rfl | h2
  · exact Nat.le_max_left _ _
  · have h3 : 2 ^ k * l ≤ 2 ^ a := Nat.le_trans ((Nat.le_div_iff_mul_le hl).1 h2) h1
    have h4 : 2 ^ (k + b) < 2 ^ (a + 1) := by
      rw [Nat.pow_add, Nat.pow_succ]
      have := Nat.mul_lt_mul_of_pos_left hb (Nat.two_pow_pos k)
      have e : 2 ^ k * (2 * l) = 2 ^ k * l * 2 := by rw [Nat.mul_comm 2 l, Nat.mul_assoc]
      omega
    have h5 : k + b < a + 1 := (Nat.pow_lt_pow_iff_right (by decide)).1 h4
    refine Nat.le_trans ?_ (Nat.le_max_right _ _)
    rw [Nat.pow_div (by omega) (by decide)]
    exact Nat.pow_le_pow_right (by decide) (by omega)

theorem slotOf_lt {k : Nat} (hk : k ≤ 64) (nine : Bytes) : slotOf k nine < 2 ^ k := by
  unfold slotOf
  refine Nat.xor_lt_two_pow ?_ (Nat.mod_lt _ (Nat.two_pow_pos k))
  rw [Nat.div_lt_iff_lt_mul (Nat.two_pow_pos _), ← Nat.pow_add, show k + (64 - k) = 64 by omega]
  exact toNat_lt64 _

theorem placed_fits {l n p : Nat} (hp : Placed l n p) : p + 9 ≤ n := by
  have h2 := hp.2
  split at h2
  · omega
  · obtain ⟨q, -, h3, h4⟩ := h2; omega

/-- Each bucket remembers one place: the first of those that belong into it. -/
theorem kept_few (k l : Nat) (hk : k ≤ 64) (src : Bytes) :
    ∃ kept : List Nat, kept.Nodup ∧ kept.length ≤ 2 ^ k ∧ ∀ p, p ∈ kept ↔ FirstInSlot k l src (window src p 9) p := by
  classical
  let F := (Finset.range src.length).filter (fun p => FirstInSlot k l src (window src p 9) p)
  refine ⟨F.toList, F.nodup_toList, ?_, fun p => ?_⟩
  · rw [Finset.length_toList]
    have : F.card ≤ (Finset.range (2 ^ k)).card := by
      refine Finset.card_le_card_of_injOn (fun p => slotOf k (window src p 9)) (fun p _ => ?_) ?_
      · simpa using slotOf_lt hk _
      · intro p hp q hq e
        have h1 : FirstInSlot k l src (window src p 9) p := by simpa [F] using (Finset.mem_filter.1 (Finset.mem_coe.1 hp)).2
        have h2 : FirstInSlot k l src (window src q 9) q := by simpa [F] using (Finset.mem_filter.1 (Finset.mem_coe.1 hq)).2
        exact Nat.le_antisymm (h1.2.2 q h2.1 e.symm) (h2.2.2 p h1.1 e)
    simpa using this
  · simp only [Finset.mem_toList, Finset.mem_filter, Finset.mem_range, F]
    refine ⟨fun h => h.2, fun h => ⟨?_, h⟩⟩
    have := placed_fits h.1
    omega

/-- What is found is remembered. -/
theorem found_kept {k l : Nat} {src trgt : Bytes} {m : SrcMatcher} (hf : Filled k l src m) {s pre post : Nat}
    (e : m.findBest src trgt = .ok (some (s, pre, post))) : FirstInSlot k l src (window src s 9) s := by
  unfold SrcMatcher.findBest at e
  rw [Outcome.bind_eq_ok] at e
  obtain ⟨r, hr, e⟩ := e
  cases r with
  | none => cases e
  | some tp =>
    simp only [Outcome.bind_eq_ok] at e
    obtain ⟨x, hx, e⟩ := e
    cases x with
    | none => cases e
    | some y =>
      obtain ⟨pre', post'⟩ := y
      simp only [Outcome.pure_eq, Outcome.ok.injEq, Option.some.injEq, Prod.mk.injEq] at e
      obtain ⟨rfl, rfl, rfl⟩ := e
      have hsl : ∀ p, Placed l src.length p → slotAt k src p = slotOf k (window src p 9) := fun p hp =>
        slotAt_eq (window_length (placed_fits hp))
      simp only [HashTable.get, Outcome.bind_eq_ok] at hr
      obtain ⟨b, hb, hr⟩ := hr
      simp only [Outcome.pure_eq, Outcome.ok.injEq] at hr
      rcases hf.holds.has _ b (idx_eq_ok.1 hb) with ⟨h1, -⟩ | ⟨p, h1, h2, h3, rfl⟩
      · simp [BucketValue.get, h1] at hr
      · simp only [BucketValue.get, Nat.add_one_ne_zero, if_false, Nat.add_sub_cancel] at hr
        split at hr
        · cases hr
          rw [hf.step]
          have := Nat.div_add_mod p l
          rw [h1.1, Nat.add_zero, Nat.mul_comm] at this
          rw [this]
          exact ⟨h1, rfl, fun q hq he => h3 q hq (by rw [← h2, hsl q hq, hsl p h1, he])⟩
        · cases hr

/-- **C114.** Let the source fit into the window.  Then there is a list of places of the source - not more than the length of
the source rounded down to a power of two, divided by `l_step` rounded up to one, or four - such that every match in the
source that any encoding finds with these settings, of whatever target, begins with the nine bytes at one of these places. -/
theorem C114_kept (c : SrcMatcherConfig) (src : Bytes) (hc : c.maxSrcWinSize.getD (2 ^ 26) ≤ 2 ^ 63)
    (hs : src.length ≤ max (c.maxSrcWinSize.getD (2 ^ 26)) (2 ^ 20)) (hs2 : src.length < 2 ^ 63) :
    ∃ kept : List Nat, kept.Nodup ∧ (∀ p ∈ kept, Placed (max c.lStep 1) src.length p) ∧
      (∀ a b, src.length ≤ 2 ^ (a + 1) → 2 ^ b < 2 * max c.lStep 1 → kept.length ≤ max 4 (2 ^ a / 2 ^ b)) ∧
      ∀ (dbg : Bool) (w : Nat) (cfg : InnerConfig) (trgt : Bytes), cfg.matchSrc = some c → trgt.length < 2 ^ 63 →
        (naiveResult cfg.naiveTests src trgt).2.1 < max (c.maxSrcWinSize.getD (2 ^ 26)) (2 ^ 20) / 2 →
        ∀ (j : Bool) (st : EncSt), Reached dbg w cfg src trgt j st → ∀ m, st.srcM = some m →
          ∀ p pre post, m.findBest src trgt = .ok (some (p, pre, post)) →
            p ∈ kept ∧ m.fwdPos + 9 ≤ trgt.length ∧ window src p 9 = window trgt m.fwdPos 9 := by
  have hk : tableBits (nextPow2 src.length / 2 / max c.lStep 1) ≤ 64 := by
    have := tableBits_le (nextPow2 src.length / 2 / max c.lStep 1); omega
  obtain ⟨kept, h1, h2, h3⟩ := kept_few _ (max c.lStep 1) hk src
  refine ⟨kept, h1, fun p hp => ((h3 p).1 hp).1, fun a b ha hb => ?_, ?_⟩
  · exact Nat.le_trans h2 (buckets_pow (by omega) hs2 ha hb)
  · intro dbg w cfg trgt hcfg ht hst j st hr m hm p pre post e
    obtain ⟨ww, hww, hf⟩ := reached_filled hcfg hc hs hst ht hr m hm
    have hge := winSize_ge hc hww
    have h0 := halfPow_range src.length
    rw [Nat.min_eq_left (by omega)] at hf
    obtain ⟨-, g2, g3⟩ := found_placed hf e
    exact ⟨(h3 p).2 (found_kept hf e), g2, g3⟩

/-- **C114** (what is lost). Let the source fit into the window and `l_step` be at least 9. Of the places that are entered, one
at each multiple of `l_step`, all but the number above are lost: a target that has nine bytes in common with the source only at lost
places gets a patch that does not use the source - as if the two files had nothing in common. -/
theorem C114_lost (c : SrcMatcherConfig) (src : Bytes) (hc : c.maxSrcWinSize.getD (2 ^ 26) ≤ 2 ^ 63)
    (hs : src.length ≤ max (c.maxSrcWinSize.getD (2 ^ 26)) (2 ^ 20)) (hs2 : src.length < 2 ^ 63) (h9 : 9 ≤ c.lStep) :
    ∃ lost : List Nat, lost.Nodup ∧ (∀ p ∈ lost, p % c.lStep = 0 ∧ p + c.lStep + 9 ≤ src.length) ∧
      (∀ a b, src.length ≤ 2 ^ (a + 1) → 2 ^ b < 2 * c.lStep →
        (src.length - 9) / c.lStep ≤ lost.length + max 4 (2 ^ a / 2 ^ b)) ∧
      ∀ (dbgE dbgA : Bool) (cdc : Codec) (cfg : EncoderConfig) (trgt w w' : Bytes), cfg.matchSrc = some c →
        (UsesLibrary cfg.secComp → Faithful cdc ∧ trgt ≠ []) → trgt.length < 2 ^ 63 →
        (cfg.naiveTests = none ∨ ¬ src <+: trgt ∧ ¬ src <:+ trgt) →
        (∀ p q, p % c.lStep = 0 → p + c.lStep + 9 ≤ src.length → p ∉ lost → q + 9 ≤ trgt.length →
          window src p 9 ≠ window trgt q 9) →
        encode dbgE cdc cfg (some src) trgt w = (.ok (), w') →
        ∃ patch, w' = w ++ patch ∧
          ∀ dict : Option Bytes, applyPatch dbgA cdc dict patch .empty = (.ok (), ⟨trgt, trgt.length⟩) := by
  have hl : max c.lStep 1 = c.lStep := by omega
  obtain ⟨kept, k1, k2, k3, k4⟩ := C114_kept c src hc hs hs2
  rw [hl] at k2 k3
  have hmem : ∀ p, p ∈ ((List.range ((src.length - 9) / c.lStep)).map (c.lStep * ·)) ↔
      p % c.lStep = 0 ∧ p + c.lStep + 9 ≤ src.length := by
    intro p
    simp only [List.mem_map, List.mem_range]
    constructor
    · rintro ⟨i, hi, rfl⟩
      refine ⟨Nat.mul_mod_right _ _, ?_⟩
      have h1 := (Nat.le_div_iff_mul_le (by omega : 0 < c.lStep)).1 (Nat.succ_le_of_lt hi)
      rw [Nat.succ_mul, Nat.mul_comm] at h1
      omega
    · rintro ⟨h1, h2⟩
      have h3 := Nat.div_add_mod p c.lStep
      rw [h1, Nat.add_zero] at h3
      refine ⟨p / c.lStep, ?_, h3⟩
      apply Nat.lt_of_succ_le
      rw [Nat.le_div_iff_mul_le (by omega : 0 < c.lStep), Nat.succ_mul, Nat.mul_comm]
      omega
  have hnd : ((List.range ((src.length - 9) / c.lStep)).map (c.lStep * ·)).Nodup := by
    refine List.Nodup.map (fun a b h => ?_) List.nodup_range
    exact Nat.eq_of_mul_eq_mul_left (by omega : 0 < c.lStep) h
  refine ⟨((List.range ((src.length - 9) / c.lStep)).map (c.lStep * ·)).filter (· ∉ kept), hnd.filter _, fun p hp => ?_, ?_, ?_⟩
  · exact (hmem p).1 (List.mem_filter.1 hp).1
  · intro a b ha hb
    have h1 := k3 a b ha hb
    generalize hx : (List.range ((src.length - 9) / c.lStep)).map (c.lStep * ·) = all at *
    have h2 : all.length = (src.length - 9) / c.lStep := by rw [← hx]; simp
    have h3 : (all.filter (· ∈ kept)).length ≤ kept.length :=
      ((hnd.filter _).subperm (fun p hp => by simpa using (List.mem_filter.1 hp).2)).length_le
    have h4 := List.length_eq_length_filter_add (l := all) (fun p => decide (p ∈ kept))
    have h5 : all.filter (fun x => !decide (x ∈ kept)) = all.filter (fun x => decide (x ∉ kept)) := by
      congr 1; funext x; simp
    rw [h5] at h4
    omega
  · intro dbgE dbgA cdc cfg trgt w w' hcfg hlib ht hn hno e
    refine blind_patch dbgE dbgA cdc cfg src trgt w w' hlib hs2 ht (fun iops e1 => ?_) e
    have hnv := naive_misses hn
    refine encodeInner_blind hnv (fun j st hr _ m r hm hr' => ?_) e1
    rcases r with _ | ⟨p, pre, post⟩
    · rfl
    · exfalso
      obtain ⟨g1, g2, g3⟩ := k4 dbgE _ _ trgt hcfg ht (by rw [hnv]; simp only; omega) j st hr m hm p pre post hr'
      have hpl := k2 p g1
      have hp2 : p + c.lStep + 9 ≤ src.length := by
        have := hpl.2
        rw [if_pos h9] at this
        exact this
      exact hno p _ hpl.1 hp2 (fun h => by simpa [g1] using (List.mem_filter.1 h).2) g2 g3

/-- **C114** (a piece that is not found). In particular when no nine bytes occur twice in the source: the lost places are such
that each piece of the source that contains a lost place and no other (such pieces have up to `2 * l_step + 7` bytes), when it is
the target, is encoded as if it did not occur in the source. -/
theorem C114_piece (c : SrcMatcherConfig) (src : Bytes) (hc : c.maxSrcWinSize.getD (2 ^ 26) ≤ 2 ^ 63)
    (hs : src.length ≤ max (c.maxSrcWinSize.getD (2 ^ 26)) (2 ^ 20)) (hs2 : src.length < 2 ^ 63) (h9 : 9 ≤ c.lStep)
    (hu : ∀ p q, p + 9 ≤ src.length → q + 9 ≤ src.length → window src p 9 = window src q 9 → p = q) :
    ∃ lost : List Nat, lost.Nodup ∧ (∀ p ∈ lost, p % c.lStep = 0 ∧ p + c.lStep + 9 ≤ src.length) ∧
      (∀ a b, src.length ≤ 2 ^ (a + 1) → 2 ^ b < 2 * c.lStep →
        (src.length - 9) / c.lStep ≤ lost.length + max 4 (2 ^ a / 2 ^ b)) ∧
      ∀ (dbgE dbgA : Bool) (cdc : Codec) (cfg : EncoderConfig) (w w' : Bytes) (p s len : Nat), cfg.matchSrc = some c →
        p ∈ lost → p < s + c.lStep → s + len ≤ p + c.lStep + 8 → 0 < len →
        (UsesLibrary cfg.secComp → Faithful cdc) →
        encode dbgE cdc cfg (some src) (window src s len) w = (.ok (), w') →
        ∃ patch, w' = w ++ patch ∧ ∀ dict : Option Bytes,
          applyPatch dbgA cdc dict patch .empty = (.ok (), ⟨window src s len, (window src s len).length⟩) := by
  obtain ⟨lost, l1, l2, l3, l4⟩ := C114_lost c src hc hs hs2 h9
  refine ⟨lost, l1, l2, l3, fun dbgE dbgA cdc cfg w w' p s len hcfg hp h1 h2 h0 hlib e => ?_⟩
  have hpp := l2 p hp
  have hlen : (window src s len).length = len := window_length (by omega)
  have hlt : (window src s len).length < src.length := by omega
  refine l4 dbgE dbgA cdc cfg _ w w' hcfg (fun h => ⟨hlib h, fun h => ?_⟩) (by omega) (.inr ⟨fun h => ?_, fun h => ?_⟩)
    (fun p' q hm hp' hlost hq heq => ?_) e
  · rw [h, List.length_nil] at hlen; omega
  · have := h.length_le; omega
  · have := h.length_le; omega
  · rw [hlen] at hq
    have hw : window (window src s len) q 9 = window src (s + q) 9 := by
      unfold window
      rw [List.drop_take, List.drop_drop, List.take_take, Nat.min_eq_left (by omega)]
    rw [hw] at heq
    have hpq := hu p' (s + q) (by omega) (by omega) heq
    subst hpq
    -- the only multiple of the step there is `p`
    have h3 := Nat.div_add_mod p c.lStep
    have h4 := Nat.div_add_mod (s + q) c.lStep
    rw [hpp.1, Nat.add_zero] at h3
    rw [hm, Nat.add_zero] at h4
    have : (s + q) / c.lStep = p / c.lStep := by
      apply Nat.le_antisymm
      · apply Nat.le_of_lt_succ
        rw [Nat.div_lt_iff_lt_mul (by omega), Nat.succ_mul, Nat.mul_comm, h3]
        omega
      · apply Nat.le_of_lt_succ
        rw [Nat.div_lt_iff_lt_mul (by omega), Nat.succ_mul, Nat.mul_comm, h4]
        omega
    rw [this, h3] at h4
    exact hlost (h4 ▸ hp)

/-- **C114** (by default). With the default settings and a source of 129 bytes to 64 MiB in which no nine bytes occur twice, at
least `n / 18 - n / 32 - 1` of the about `n / 18` pieces of 43 bytes - seven of sixteen - are not found when they are the target. -/
theorem C114_default (src : Bytes) (h1 : 129 ≤ src.length) (h2 : src.length ≤ 2 ^ 26)
    (hu : ∀ p q, p + 9 ≤ src.length → q + 9 ≤ src.length → window src p 9 = window src q 9 → p = q) :
    ∃ lost : List Nat, lost.Nodup ∧ (src.length - 9) / 18 ≤ lost.length + (src.length - 1) / 32 ∧
      ∀ p ∈ lost, p % 18 = 0 ∧ p + 27 ≤ src.length ∧ ∀ (dbgE dbgA : Bool) (cdc : Codec) (w' : Bytes),
        encode dbgE cdc .default (some src) (window src (p - 17) (p + 26 - (p - 17))) ([] : Bytes) = (.ok (), w') →
        ∀ dict : Option Bytes, (applyPatch dbgA cdc dict w' .empty).2.data = window src (p - 17) (p + 26 - (p - 17)) := by
  obtain ⟨lost, l1, l2, l3, l4⟩ := C114_piece { lStep := 18, maxSrcWinSize := none } src (by simp) (by simp; omega) (by omega)
    (by simp) hu
  refine ⟨lost, l1, ?_, fun p hp => ⟨(l2 p hp).1, by have := (l2 p hp).2; simp only at this; omega, ?_⟩⟩
  · have ha := Nat.lt_log2_self (n := src.length - 1)
    have hb := Nat.log2_self_le (n := src.length - 1) (by omega)
    have := l3 (Nat.log2 (src.length - 1)) 5 (by omega) (by simp)
    simp only at this
    have h3 : 2 ^ Nat.log2 (src.length - 1) / 2 ^ 5 ≤ (src.length - 1) / 32 := Nat.div_le_div_right hb
    omega
  · intro dbgE dbgA cdc w' e dict
    obtain ⟨patch, h3, h4⟩ := l4 dbgE dbgA cdc .default [] w' p (p - 17) (p + 26 - (p - 17)) rfl hp (by simp; omega)
      (by simp; omega) (by omega) (by simp [EncoderConfig.default, UsesLibrary]) e
    rw [List.nil_append] at h3
    rw [h3, h4 dict]

/-! ### The hypotheses are met -/

/-- A source of 200 bytes in which no nine bytes occur twice: at least four of its ten places are lost. -/
example : ∃ src : Bytes, src.length = 200 ∧
    (∀ p q, p + 9 ≤ src.length → q + 9 ≤ src.length → window src p 9 = window src q 9 → p = q) ∧
    ∃ lost : List Nat, 4 ≤ lost.length ∧ (∀ p ∈ lost, p % 18 = 0) ∧ lost.Nodup := by
  have hlen : ((List.range 200).map UInt8.ofNat).length = 200 := by simp
  have hu : ∀ p q, p + 9 ≤ ((List.range 200).map UInt8.ofNat).length → q + 9 ≤ ((List.range 200).map UInt8.ofNat).length →
      window ((List.range 200).map UInt8.ofNat) p 9 = window ((List.range 200).map UInt8.ofNat) q 9 → p = q := by
    intro p q hp hq h
    rw [hlen] at hp hq
    have h := congrArg (·[0]?) h
    simp only [window, List.getElem?_take_of_lt (show 0 < 9 by omega), List.getElem?_drop, Nat.add_zero, List.getElem?_map,
      List.getElem?_range (show p < 200 by omega), List.getElem?_range (show q < 200 by omega), Option.map_some,
      Option.some.injEq] at h
    have := congrArg UInt8.toNat h
    simp only [UInt8.toNat_ofNat'] at this
    omega
  refine ⟨_, hlen, hu, ?_⟩
  obtain ⟨lost, h1, h2, h3⟩ := C114_default _ (by rw [hlen]; omega) (by rw [hlen]; omega) hu
  exact ⟨lost, by rw [hlen] at h2; omega, fun p hp => (h3 p hp).1, h1⟩

end Smdiff
