import Verif.Props.Runs
/-!
# C97: what is stored is new
-/
namespace Smdiff
open Spec

/-- Nothing was found in the source. -/
theorem missed_src {dbg : Bool} {w : Nat} {cfg : InnerConfig} {c : SrcMatcherConfig} {src trgt : Bytes} {t : Nat}
    (hcfg : cfg.matchSrc = some c) (h : Missed dbg w cfg src trgt t) (h9 : t + 9 ≤ (naiveResult cfg.naiveTests src trgt).2.2) :
    ∃ j s m, Reached dbg w cfg src trgt j s ∧ s.state = .tryMatch ∧ s.cur = t ∧ s.srcM = some m ∧
      ∀ p pre post, m.findBest src trgt = .ok (some (p, pre, post)) → post < 4 := by
  obtain ⟨j, s, rl, h1, h2, h3, h4, -, -, h5, -⟩ := h
  have hm : ∃ m, s.srcM = some m := by
    have key : ∀ {j st}, Reached dbg w cfg src trgt j st → st.srcM.isSome = true := by
      intro j st h
      induction h with
      | init st e =>
        unfold encInit at e
        simp only [Outcome.bind_eq_ok] at e
        obtain ⟨tm, -, sm, hsm, e⟩ := e
        cases e
        rw [hcfg, onSome_eq_ok] at hsm
        rcases hsm with ⟨h, -⟩ | ⟨a, b, -, -, h⟩
        · cases h
        · simp [h]
      | step j st st' _ hc e ih =>
        unfold encStep at e
        split at e
        · simp only [stepStart, Outcome.bind_eq_ok] at e
          obtain ⟨_, -, ⟨_, _⟩, -, sm, hsm, _, -, e⟩ := e
          cases e
          rw [onSome_eq_ok] at hsm
          rcases hsm with ⟨h, -⟩ | ⟨a, b, -, -, h⟩
          · rw [h] at ih; cases ih
          · simp [h]
        · rw [(stepTry_keeps e).1]; exact ih
        · cases e
          unfold stepFound
          split <;> exact ih
        · simp only [stepMove, Outcome.bind_eq_ok] at e
          obtain ⟨_, -, _, -, sm, hsm, e⟩ := e
          cases e
          rw [onSome_eq_ok] at hsm
          rcases hsm with ⟨h, -⟩ | ⟨a, b, -, -, h⟩
          · rw [h] at ih; cases ih
          · simp [h]
    exact Option.isSome_iff_exists.1 (key h1)
  obtain ⟨m, hm⟩ := hm
  refine ⟨j, s, m, h1, h2, h3, hm, fun p pre post hf => ?_⟩
  unfold trySrc at h5
  simp only [hm] at h5
  rw [if_pos (by rw [h3]; exact h9)] at h5
  simp only [Outcome.bind_eq_ok] at h5
  obtain ⟨_, -, r, hr, h5⟩ := h5
  rw [hf] at hr
  cases hr
  simp only [h4] at h5
  rcases Nat.lt_or_ge post 4 with h | h
  · exact h
  · exfalso
    rw [if_pos h] at h5
    revert h5
    split
    · simp only [Outcome.bind_eq_ok]
      rintro ⟨_, -, _, -, h5⟩
      revert h5
      split
      · simp only [Outcome.bind_eq_ok]
        rintro ⟨_, -, _, -, _, -, h5⟩
        cases h5
      · intro h5; cases h5
    · simp only [Outcome.bind_eq_ok]
      rintro ⟨_, -, _, -, h5⟩
      revert h5
      split
      · simp only [Outcome.bind_eq_ok]
        rintro ⟨_, -, _, -, _, -, h5⟩
        cases h5
      · intro h5; cases h5

theorem window_part {trgt as : Bytes} {x i n : Nat} (h : as = (trgt.drop x).take as.length) (hi : i + n ≤ as.length) :
    window as i n = window trgt (x + i) n := by
  unfold window
  rw [h, List.drop_take, List.take_take, List.drop_drop, Nat.min_eq_left (by omega)]

/-- **C97.** With source matching, and a source that fits into the window, what is stored is not in the source: leaving out
its first six and its last forty-eight bytes, no nine bytes in a row of an Add are those at a place of the source that
was entered - unless an earlier place with other bytes belongs into the same bucket. -/
theorem C97_not_in_source (dbgE dbgR : Bool) (cdc : Codec) (cfg : EncoderConfig) (c : SrcMatcherConfig)
    (hcfg : cfg.matchSrc = some c) (src trgt : Bytes)
    (hc : c.maxSrcWinSize.getD (2 ^ 26) ≤ 2 ^ 63) (hs : src.length ≤ max (c.maxSrcWinSize.getD (2 ^ 26)) (2 ^ 20))
    (hs2 : src.length < 2 ^ 63) (ht : trgt.length < 2 ^ 63)
    (hlib : (cfg.secComp = some .zstd ∨ cfg.secComp = some .brotli) → Faithful cdc ∧ trgt ≠ [])
    (hn : cfg.naiveTests = none ∨ ¬ src <+: trgt ∧ ¬ src <:+ trgt) :
    ∃ k, 2 ≤ k ∧ (k = 2 ∨ 2 ^ k * max c.lStep 1 ≤ src.length) ∧ src.length < 2 ^ (k + 2) * max c.lStep 1 ∧
      ∀ w w', encode dbgE cdc cfg (some src) trgt w = (.ok (), w') →
      ∃ patch ss, w' = w ++ patch ∧ SectionsAt (VRead dbgR) cdc ss patch [] ∧ Terminated ss ∧
        ∀ as, Op.add as ∈ ss.flatMap (·.2) → ∀ i, 6 ≤ i → i + 48 < as.length →
          ∀ p, Placed (max c.lStep 1) src.length p → window src p 9 = window as i 9 →
            ∃ q, q < p ∧ Placed (max c.lStep 1) src.length q ∧ window src q 9 ≠ window src p 9 ∧
              slotOf k (window src q 9) = slotOf k (window src p 9) := by
  have hnv := naive_misses hn
  have hwin : 0 < max (c.maxSrcWinSize.getD (2 ^ 26)) (2 ^ 20) / 2 := by omega
  have hk : ∃ k, 2 ≤ k ∧ (k = 2 ∨ 2 ^ k * max c.lStep 1 ≤ src.length) ∧ src.length < 2 ^ (k + 2) * max c.lStep 1 ∧
      (9 < trgt.length → ∀ (j : Bool) (st : EncSt), Reached dbgE (walkFuel cfg.matchTrgt trgt)
          ⟨cfg.matchTrgt, cfg.matchSrc, cfg.lazyEscapeLen, cfg.naiveTests⟩ src trgt j st → st.state = .tryMatch →
        st.cur + 9 ≤ (naiveResult cfg.naiveTests src trgt).2.2 → ∀ m, st.srcM = some m →
        ∀ p, Placed (max c.lStep 1) src.length p → window src p 9 = window trgt st.cur 9 →
          (∀ q, q < p → Placed (max c.lStep 1) src.length q → slotOf k (window src q 9) = slotOf k (window src p 9) →
            window src q 9 = window src p 9) →
          ∃ p0 pre post, m.findBest src trgt = .ok (some (p0, pre, post)) ∧ p0 ≤ p ∧ 9 ≤ post ∧
            window src p0 9 = window src p 9 ∧ Longest src trgt p0 st.cur pre post) := by
    by_cases h9 : 9 < trgt.length
    · obtain ⟨k, k1, k2, k3, k4⟩ := C93_first_found dbgE (walkFuel cfg.matchTrgt trgt)
        ⟨cfg.matchTrgt, cfg.matchSrc, cfg.lazyEscapeLen, cfg.naiveTests⟩ c src trgt hcfg (by unfold walkFuel; omega) hc hs hs2
        (by rw [hnv]; exact hwin) ht (by rw [hnv]; simp only; omega)
      exact ⟨k, k1, k2, k3, fun _ => k4⟩
    · obtain ⟨k1, k2, k3⟩ := buckets_range (n := src.length) (w := src.length) (l := max c.lStep 1) (by omega) (by omega) hs2
      exact ⟨_, k1, k2, k3, fun h => absurd h h9⟩
  obtain ⟨k, k1, k2, k3, hk⟩ := hk
  refine ⟨k, k1, k2, k3, fun w w' e => ?_⟩
  obtain ⟨patch, ss, h1, h2, h3, h4⟩ := written_ops dbgE dbgR cdc cfg (some src) _ w w' hlib hs2 ht e
  refine ⟨patch, ss, h1, h2, h3, fun as has i hi1 hi2 p hp he => ?_⟩
  generalize ss.flatMap (·.2) = ops at *
  obtain ⟨pre, post, hsp⟩ := List.append_of_mem has
  have hne : (some src).getD [] ≠ [] := by
    have h2 := hp.2
    intro h0
    simp only [Option.getD_some] at h0
    subst h0
    simp only [List.length_nil] at h2
    split at h2
    · omega
    · obtain ⟨q, -, h3, h4⟩ := h2; omega
  obtain ⟨q1, q2, q3⟩ := stored_missed (Or.inl ⟨by rw [hcfg]; simp, hne⟩) h4 hsp
  obtain ⟨hlt, hmiss⟩ := q3 i 8 hi1 (by omega) (by omega)
  obtain ⟨j, s, m, m1, m2, m3, m4, m5⟩ := missed_src hcfg hmiss (by simp only at hlt ⊢; omega)
  have hwn := window_part q2 (show i + 9 ≤ as.length by omega)
  rw [← m3] at hwn
  by_cases hcol : ∃ q, q < p ∧ Placed (max c.lStep 1) src.length q ∧ window src q 9 ≠ window src p 9 ∧
      slotOf k (window src q 9) = slotOf k (window src p 9)
  · exact hcol
  · exfalso
    obtain ⟨p0, a, b, f1, -, f3, -⟩ := hk (by omega) j s m1 m2 (by rw [m3]; simp only [Option.getD_some] at hlt; omega) m m4 p hp
      (he.trans hwn) (fun q hq hpq hslot => by
        by_cases hw : window src q 9 = window src p 9
        · exact hw
        · exact absurd ⟨q, hq, hpq, hw, hslot⟩ hcol)
    have := m5 p0 a b f1
    omega

/-- Among any `l` places one after the other there is one that is entered, if they are not too close to the end. -/
theorem placed_near {l n s : Nat} (hl : 1 ≤ l) (h : s + 3 * l + 16 ≤ n) : ∃ p, s ≤ p ∧ p < s + l ∧ Placed l n p := by
  have up : ∀ x, ∃ p, p % l = 0 ∧ x ≤ p ∧ p < x + l := by
    intro x
    refine ⟨(x + (l - 1)) / l * l, by simp, ?_, ?_⟩
    · have h1 := Nat.div_add_mod (x + (l - 1)) l
      have h2 := Nat.mod_lt (x + (l - 1)) (show 0 < l by omega)
      rw [Nat.mul_comm] at h1
      omega
    · have h1 := Nat.div_mul_le_self (x + (l - 1)) l
      omega
  obtain ⟨p, p1, p2, p3⟩ := up s
  refine ⟨p, p2, p3, p1, ?_⟩
  split
  · omega
  · obtain ⟨q, r1, r2, r3⟩ := up (p + l + 9)
    exact ⟨q, r1, r2, by omega⟩

theorem window_inner {a b : Bytes} {s i n d m : Nat} (h : window a s n = window b i n) (hd : d + m ≤ n) :
    window a (s + d) m = window b (i + d) m := by
  unfold window at *
  have := congrArg (fun l => (l.drop d).take m) h
  simp only [List.drop_take, List.take_take, List.drop_drop] at this
  rwa [Nat.min_eq_left (by omega)] at this

/-- **C97.** So, if no two places with different bytes belong into the same bucket, no Add contains `l_step + 54` bytes of the
source in a row, but for the last `2 l_step` bytes or so of the source. -/
theorem C97_no_piece (dbgE dbgR : Bool) (cdc : Codec) (cfg : EncoderConfig) (c : SrcMatcherConfig)
    (hcfg : cfg.matchSrc = some c) (src trgt : Bytes)
    (hc : c.maxSrcWinSize.getD (2 ^ 26) ≤ 2 ^ 63) (hs : src.length ≤ max (c.maxSrcWinSize.getD (2 ^ 26)) (2 ^ 20))
    (hs2 : src.length < 2 ^ 63) (ht : trgt.length < 2 ^ 63)
    (hlib : (cfg.secComp = some .zstd ∨ cfg.secComp = some .brotli) → Faithful cdc ∧ trgt ≠ [])
    (hn : cfg.naiveTests = none ∨ ¬ src <+: trgt ∧ ¬ src <:+ trgt) :
    ∃ k, 2 ≤ k ∧ (k = 2 ∨ 2 ^ k * max c.lStep 1 ≤ src.length) ∧ src.length < 2 ^ (k + 2) * max c.lStep 1 ∧
      ((∀ p q, Placed (max c.lStep 1) src.length p → Placed (max c.lStep 1) src.length q →
        slotOf k (window src q 9) = slotOf k (window src p 9) → window src q 9 = window src p 9) →
      ∀ w w', encode dbgE cdc cfg (some src) trgt w = (.ok (), w') →
      ∃ patch ss, w' = w ++ patch ∧ SectionsAt (VRead dbgR) cdc ss patch [] ∧ Terminated ss ∧
        ∀ as, Op.add as ∈ ss.flatMap (·.2) → ∀ s, s + max c.lStep 1 + 54 ≤ src.length →
          s + 3 * max c.lStep 1 + 22 ≤ src.length → ¬ window src s (max c.lStep 1 + 54) <:+: as) := by
  obtain ⟨k, k1, k2, k3, key⟩ := C97_not_in_source dbgE dbgR cdc cfg c hcfg src trgt hc hs hs2 ht hlib hn
  refine ⟨k, k1, k2, k3, fun hno w w' e => ?_⟩
  obtain ⟨patch, ss, h1, h2, h3, h4⟩ := key w w' e
  refine ⟨patch, ss, h1, h2, h3, fun as has s hsl hsn hin => ?_⟩
  have hl : 1 ≤ max c.lStep 1 := by omega
  generalize max c.lStep 1 = l at *
  obtain ⟨x, y, hxy⟩ := hin
  obtain ⟨p, p1, p2, p3⟩ := placed_near hl (show (s + 6) + 3 * l + 16 ≤ src.length by omega)
  have hlen : (window src s (l + 54)).length = l + 54 := window_length hsl
  have hw : window src s (l + 54) = window as x.length (l + 54) := by
    rw [← hxy]
    unfold window at hlen ⊢
    rw [List.append_assoc, List.drop_left, List.take_left' hlen]
  have hal : x.length + (l + 54) ≤ as.length := by rw [← hxy]; simp only [List.length_append, hlen]; omega
  have h9 := window_inner (d := p - s) (m := 9) hw (by omega)
  rw [show s + (p - s) = p by omega] at h9
  obtain ⟨q, -, q2, q3, q4⟩ := h4 as has (x.length + (p - s)) (by omega) (by omega) p p3 h9
  exact q3 (hno p q p3 q2 q4)

/-! ## The cases are there -/

/-- Eighty bytes, with a place entered every sixteen: `0`, `16`, `32` and `48`. -/
def parabola (a b : Nat) : Bytes := (List.range 80).map fun i => UInt8.ofNat (a * (i * i) + b * i)

def everySixteen : EncoderConfig := { EncoderConfig.default with matchSrc := some ⟨16, none⟩ }

/-- Seventy bytes of which no four repeat. -/
def newBytes : Bytes := (List.range 70).map fun i => UInt8.ofNat (7 * i + 3)

theorem parabola_places (a b p : Nat) : Placed 16 (parabola a b).length p ↔ p = 0 ∨ p = 16 ∨ p = 32 ∨ p = 48 := by
  have hl : (parabola a b).length = 80 := by simp [parabola]
  rw [hl]
  simp only [Placed, if_pos (show 9 ≤ 16 by decide)]
  omega

/-- A piece of the source between new bytes: it is copied, and what is stored has nothing in common with the source. -/
example : encode true storedCodec everySixteen (some (parabola 3 0)) (newBytes.take 8 ++ (parabola 3 0).extract 16 39 ++ newBytes) ([] : Bytes)
    = (.ok (), [0, 3, 101, 0x80 + 8] ++ newBytes.take 8 ++ [0x00 + 23, 32] ++ [0x80, 70, 0] ++ newBytes) := by decide +kernel

example : ∃ k, 2 ≤ k ∧ (k = 2 ∨ 2 ^ k * max 16 1 ≤ (parabola 3 0).length) ∧ (parabola 3 0).length < 2 ^ (k + 2) * max 16 1 ∧
      ∀ w w', encode true storedCodec everySixteen (some (parabola 3 0)) newBytes w = (.ok (), w') →
      ∃ patch ss, w' = w ++ patch ∧ SectionsAt (VRead true) storedCodec ss patch [] ∧ Terminated ss ∧
        ∀ as, Op.add as ∈ ss.flatMap (·.2) → ∀ i, 6 ≤ i → i + 48 < as.length →
          ∀ p, Placed (max 16 1) (parabola 3 0).length p → window (parabola 3 0) p 9 = window as i 9 →
            ∃ q, q < p ∧ Placed (max 16 1) (parabola 3 0).length q ∧ window (parabola 3 0) q 9 ≠ window (parabola 3 0) p 9 ∧
              slotOf k (window (parabola 3 0) q 9) = slotOf k (window (parabola 3 0) p 9) :=
  C97_not_in_source true true storedCodec everySixteen ⟨16, none⟩ rfl (parabola 3 0) newBytes (by decide) (by decide) (by decide)
    (by decide) (fun _ => ⟨stored_faithful, by decide⟩) (Or.inl rfl)

/-- The four places of this source belong into the four buckets: the second statement applies as well. -/
example : ∀ k, (k = 2 ∨ 2 ^ k * max 16 1 ≤ (parabola 3 0).length) → 2 ≤ k → ∀ p q, Placed (max 16 1) (parabola 3 0).length p →
      Placed (max 16 1) (parabola 3 0).length q →
      slotOf k (window (parabola 3 0) q 9) = slotOf k (window (parabola 3 0) p 9) →
      window (parabola 3 0) q 9 = window (parabola 3 0) p 9 := by
  intro k hk hk2 p q hp hq hs
  have h2 : k = 2 := by
    rcases hk with h | h
    · exact h
    · have hl : (parabola 3 0).length = 80 := by simp [parabola]
      rw [hl] at h
      rcases Nat.lt_or_ge 2 k with h3 | h3
      · have : 2 ^ 3 ≤ 2 ^ k := Nat.pow_le_pow_right (by decide) h3
        have h16 : max 16 1 = 16 := rfl
        rw [h16] at h
        omega
      · omega
  subst h2
  have hp := (parabola_places 3 0 p).1 hp
  have hq := (parabola_places 3 0 q).1 hq
  have inj : (slotOf 2 (window (parabola 3 0) 0 9), slotOf 2 (window (parabola 3 0) 16 9),
      slotOf 2 (window (parabola 3 0) 32 9), slotOf 2 (window (parabola 3 0) 48 9)) = (2, 0, 1, 3) := by decide +kernel
  simp only [Prod.mk.injEq] at inj
  obtain ⟨i1, i2, i3, i4⟩ := inj
  rcases hp with rfl | rfl | rfl | rfl <;> rcases hq with rfl | rfl | rfl | rfl <;> first | rfl | (exfalso; omega)

/-- In this source the first two places belong into the same bucket, and a piece with the second is stored. -/
example : slotOf 2 (window (parabola 1 7) 0 9) = slotOf 2 (window (parabola 1 7) 16 9) := by decide +kernel
example : encode true storedCodec everySixteen (some (parabola 1 7)) (newBytes.take 8 ++ (parabola 1 7).extract 16 39 ++ newBytes) ([] : Bytes)
    = (.ok (), [0, 1, 101, 0x80, 101, 0] ++ newBytes.take 8 ++ (parabola 1 7).extract 16 39 ++ newBytes) := by decide +kernel

end Smdiff
