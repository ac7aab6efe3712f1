import Verif.SpecStored
import Verif.Lemmas.Origins
import Verif.Props.Repeat
import Verif.Props.Stored
/-!
# C98: what is stored was not stored before
-/
namespace Smdiff
open Spec

/-- Like `C94_found`, for positions passed at any time. -/
theorem found_again (dbg : Bool) (w : Nat) (cfg : InnerConfig) (c : TrgtMatcherConfig) (src trgt : Bytes)
    (hcfg : cfg.matchTrgt = some c) (hw : trgt.length ≤ w) (h0 : (naiveResult cfg.naiveTests src trgt).2.1 = 0)
    (hcheck : 0 < c.chainCheck) :
    ∃ k cap, 2 ≤ k ∧ (k = 2 ∨ 2 ^ k ≤ min (2 ^ 23) (trgt.length + trgt.length / 2)) ∧
      min (2 ^ 23) (trgt.length + trgt.length / 2) < 2 ^ (k + 2) ∧
      (c.prevTableCapacity = some cap ∨
        c.prevTableCapacity = none ∧ cap ≤ min (2 ^ 18) trgt.length ∧ min (2 ^ 18) trgt.length ≤ 2 * cap + 1) ∧
      ∀ (j : Bool) (passed : List (Bool × Nat)) (st : EncSt), Searched dbg w cfg src trgt j passed st →
        st.state = .tryMatch → st.cur + 4 ≤ (naiveResult cfg.naiveTests src trgt).2.2 → ∀ m, st.trgtM = some m →
        ∀ f p, (f, p) ∈ passed → p + 4 < st.cur → st.cur < p + cap → window trgt p 4 = window trgt st.cur 4 →
          label trgt (f, p) = label trgt (j, st.cur) →
          (∀ g q, (g, q) ∈ passed → p < q → slot32 k (label trgt (g, q)) = slot32 k (label trgt (f, p)) →
            label trgt (g, q) = label trgt (f, p)) →
          ∃ q n, m.findBest dbg w trgt st.minMatch = .ok (some (q, n)) ∧ 4 ≤ n ∧ Repeats trgt q st.cur n := by
  obtain ⟨k, cap, k1, k2, k3, k4, key⟩ := C94_exact dbg w cfg c src trgt hcfg hw h0
  refine ⟨k, cap, k1, k2, k3, k4, fun j passed st h hst h4 m hm f p hp hp4 hcap hwin hlab hq => ?_⟩
  obtain ⟨r, e, hr⟩ := key j passed st h hst h4 m hm
  obtain ⟨hlt, hpw, hfl⟩ := C94_passed dbg w cfg src trgt j passed st hw h0 h
  have hmem : p ∈ considered k cap st.cur (label trgt (j, st.cur)) (entries trgt passed) := by
    unfold considered
    rw [← hlab]
    cases hf : (entries trgt passed).find? (fun e => slot32 k e.1 == slot32 k (label trgt (f, p))) with
    | none =>
      exfalso
      rw [List.find?_eq_none] at hf
      exact hf (label trgt (f, p), p) (List.mem_map.2 ⟨(f, p), hp, rfl⟩) (by simp)
    | some e0 =>
      rw [List.find?_eq_some_iff_append] at hf
      obtain ⟨hs0, as, bs, hab, has⟩ := hf
      simp only [beq_iff_eq] at hs0
      obtain ⟨as', rest', hpas, ha1, ha2⟩ := List.map_eq_append_iff.1 hab
      obtain ⟨⟨f0, q0⟩, bs', hrest, hb1, hb2⟩ := List.map_eq_cons_iff.1 ha2
      subst hrest
      subst hb1
      dsimp only at hs0 ⊢
      have hp' := hp
      rw [hpas] at hp'
      rcases List.mem_append.1 hp' with hpa | hpb
      · exfalso
        have := has (label trgt (f, p), p) (by rw [← ha1]; exact List.mem_map.2 ⟨(f, p), hpa, rfl⟩)
        simp at this
      · rcases List.mem_cons.1 hpb with hpe | hpt
        · cases hpe
          rw [if_pos rfl]
          exact List.mem_cons_self
        · rw [hpas, List.pairwise_append] at hpw
          have h2 := List.pairwise_cons.1 hpw.2.1
          obtain ⟨h3, h5⟩ := h2.1 (f, p) hpt
          dsimp only at h3 h5
          have hl := hq f0 q0 (by rw [hpas]; simp) h3 hs0
          rw [if_pos hl]
          refine List.mem_cons_of_mem _ (List.mem_map.2 ⟨(label trgt (f, p), p), ?_, rfl⟩)
          rw [List.mem_filter]
          refine ⟨List.mem_map.2 ⟨(f, p), hp, rfl⟩, ?_⟩
          simp only [BEq.rfl, Bool.true_and, Bool.and_eq_true, decide_eq_true_eq]
          exact ⟨h3, hcap⟩
  have hmem2 : p ∈ repeatsAt trgt st.cur (considered k cap st.cur (label trgt (j, st.cur)) (entries trgt passed)) := by
    unfold repeatsAt
    rw [List.mem_filter]
    refine ⟨hmem, ?_⟩
    simp only [Bool.and_eq_true, decide_eq_true_eq, beq_iff_eq]
    exact ⟨hp4, hwin⟩
  cases hr with
  | nothing hn =>
    exfalso
    exact take_ne_nil hmem2 (by split <;> omega) hn
  | found before after q n h1 h2 h3 h5 h6 => exact ⟨q, n, e, h3, h2⟩

theorem storedAt_missed {dbg : Bool} {cfg : EncoderConfig} {dict : Option Bytes} {trgt : Bytes} {ops : List Op}
    (hm : cfg.matchTrgt ≠ none) (e : encodeOps dbg cfg dict trgt = .ok ops) {p : Nat} (h : StoredAt ops p) :
    Missed dbg (walkFuel cfg.matchTrgt trgt) ⟨cfg.matchTrgt, cfg.matchSrc, cfg.lazyEscapeLen, cfg.naiveTests⟩ (dict.getD []) trgt p := by
  obtain ⟨pre, as, post, h1, h2, h3⟩ := h
  obtain ⟨-, -, key⟩ := stored_missed (Or.inr hm) e h1
  have := (key (p - totalLen pre) 4 (by omega) (Nat.le_refl _) (by omega)).2
  rwa [show totalLen pre + (p - totalLen pre) = p by omega] at this

theorem label_zero {trgt : Bytes} (h : poly32 3141592653 (window trgt 0 4) = 0) (j : Bool) (p : Nat) :
    label trgt (j, p) = poly32 3141592653 (window trgt p 4) := by
  unfold label
  split
  · rfl
  · rw [h, UInt32.mul_zero, UInt32.sub_zero]

/-- **C98.** With target matching, nothing that is stored was stored before: if the four bytes at position `t` of the target
are those at position `p`, more than four and less than `cap` bytes before, and both are stored in an Add (leaving out the
first six and the last forty-four bytes of every Add), then four bytes between belong into the same bucket although their
checksum is another one - provided that the checksum of the first four bytes of the target is 0, as that of four
zeros, or that before `p` there is a Run or a Copy from the output of `lazy_escape_len` bytes or more. -/
theorem C98_not_stored_twice (dbgE dbgR : Bool) (cdc : Codec) (cfg : EncoderConfig) (c : TrgtMatcherConfig)
    (hcfg : cfg.matchTrgt = some c) (hcheck : 0 < c.chainCheck) (dict : Option Bytes) (trgt : Bytes)
    (hs : (dict.getD []).length < 2 ^ 63) (ht : trgt.length < 2 ^ 63)
    (hlib : (cfg.secComp = some .zstd ∨ cfg.secComp = some .brotli) → Faithful cdc ∧ trgt ≠ [])
    (hn : cfg.naiveTests = none ∨ ¬ dict.getD [] <+: trgt ∧ ¬ dict.getD [] <:+ trgt) :
    ∃ k cap, 2 ≤ k ∧ (k = 2 ∨ 2 ^ k ≤ min (2 ^ 23) (trgt.length + trgt.length / 2)) ∧
      min (2 ^ 23) (trgt.length + trgt.length / 2) < 2 ^ (k + 2) ∧
      (c.prevTableCapacity = some cap ∨
        c.prevTableCapacity = none ∧ cap ≤ min (2 ^ 18) trgt.length ∧ min (2 ^ 18) trgt.length ≤ 2 * cap + 1) ∧
      ∀ w w', encode dbgE cdc cfg dict trgt w = (.ok (), w') →
      ∃ patch ss, w' = w ++ patch ∧ SectionsAt (VRead dbgR) cdc ss patch [] ∧ Terminated ss ∧
        ∀ p t, StoredAt (ss.flatMap (·.2)) p → StoredAt (ss.flatMap (·.2)) t → p + 4 < t → t < p + cap →
          window trgt p 4 = window trgt t 4 →
          poly32 3141592653 (window trgt 0 4) = 0 ∨ BehindLong (cfg.lazyEscapeLen.getD 90) (ss.flatMap (·.2)) p →
          ∃ q, p < q ∧ q < t ∧
            slot32 k (poly32 3141592653 (window trgt q 4)) = slot32 k (poly32 3141592653 (window trgt p 4)) ∧
            poly32 3141592653 (window trgt q 4) ≠ poly32 3141592653 (window trgt p 4) := by
  have hnv := naive_misses hn
  have h0 : (naiveResult cfg.naiveTests (dict.getD []) trgt).2.1 = 0 := by rw [hnv]
  obtain ⟨k, cap, k1, k2, k3, k4, key⟩ := found_again dbgE (walkFuel cfg.matchTrgt trgt)
    ⟨cfg.matchTrgt, cfg.matchSrc, cfg.lazyEscapeLen, cfg.naiveTests⟩ c (dict.getD []) trgt hcfg (by unfold walkFuel; omega) h0 hcheck
  refine ⟨k, cap, k1, k2, k3, k4, fun w w' e => ?_⟩
  obtain ⟨patch, ss, h1, h2, h3, h4⟩ := written_ops dbgE dbgR cdc cfg dict _ w w' hlib hs ht e
  refine ⟨patch, ss, h1, h2, h3, fun p t hp htt hpt htc hwin hgood => ?_⟩
  generalize ss.flatMap (·.2) = ops at *
  have hmt : cfg.matchTrgt ≠ none := by rw [hcfg]; simp
  obtain ⟨jp, sp, rp, p1, p2, p3, p4, p5, p6, p7, p8⟩ := storedAt_missed hmt h4 hp
  obtain ⟨jt, st, rt, t1, t2, t3, t4, t5, t6, t7, t8⟩ := storedAt_missed hmt h4 htt
  obtain ⟨passp, sep⟩ := p1.searched
  obtain ⟨passt, se⟩ := t1.searched
  -- `p` was entered before the search came to `t`
  have hin : (jp, p) ∈ passt := by
    have := missed_passed (b := (jt, passt, st)) sep p2 (by rw [p3]; exact p6) p7 p8 se (by dsimp only; omega)
    rwa [p3] at this
  obtain ⟨m, hm⟩ := reached_has_trgt (cfg := ⟨cfg.matchTrgt, cfg.matchSrc, cfg.lazyEscapeLen, cfg.naiveTests⟩) hmt t1
  -- the checksums are right
  have hlab : (∀ g q, (g, q) ∈ passt → p < q → label trgt (g, q) = poly32 3141592653 (window trgt q 4)) ∧
      label trgt (jp, p) = poly32 3141592653 (window trgt p 4) ∧
      label trgt (jt, st.cur) = poly32 3141592653 (window trgt st.cur 4) := by
    rcases hgood with hz | hl
    · exact ⟨fun g q _ _ => label_zero hz g q, label_zero hz _ _, label_zero hz _ _⟩
    · obtain ⟨pre, op, post, l1, l2, l3, l4, l5⟩ := hl
      have hjp : jp = true := by
        have h4' := h4
        unfold encodeOps at h4'
        rw [Outcome.bind_eq_ok] at h4'
        obtain ⟨iops, e1, e2⟩ := h4'
        obtain ⟨x, x1, x2, x3, x4⟩ := translate_inside (encodeInner_candidates e1) e2 l1 l5 l4
        obtain ⟨a, a1, a2, a3⟩ := encodeInner_found e1 x x1 x2
        exact jumped_after (b := (jp, passp, sp)) hmt a1 a2 (by dsimp only; omega) sep p2 (by dsimp only; omega)
          (by dsimp only; rw [p3]; exact p5)
      subst hjp
      obtain ⟨q1, q2, q3⟩ := C94_passed dbgE _ _ _ trgt jt passt st (by unfold walkFuel; omega) h0 se
      have hjt : jt = true := q3 _ hin rfl
      subst hjt
      refine ⟨fun g q hg hpq => ?_, by unfold label; simp, by unfold label; simp⟩
      have hgt : g = true := by
        obtain ⟨i, hi, hgi⟩ := List.mem_iff_getElem.1 hg
        obtain ⟨i', hi', hgi'⟩ := List.mem_iff_getElem.1 hin
        rcases Nat.lt_trichotomy i i' with hlt | heq | hgt
        · have := (List.pairwise_iff_getElem.1 q2 i i' hi hi' hlt).2
          rw [hgi, hgi'] at this
          exact this rfl
        · subst heq
          rw [hgi] at hgi'
          cases hgi'
          rfl
        · have := (List.pairwise_iff_getElem.1 q2 i' i hi' hi hgt).1
          rw [hgi, hgi'] at this
          dsimp only at this
          omega
      subst hgt
      unfold label; simp
  obtain ⟨la, lb, lc⟩ := hlab
  -- so it would have been found again
  by_cases hq : ∃ q, p < q ∧ q < t ∧
      slot32 k (poly32 3141592653 (window trgt q 4)) = slot32 k (poly32 3141592653 (window trgt p 4)) ∧
      poly32 3141592653 (window trgt q 4) ≠ poly32 3141592653 (window trgt p 4)
  · exact hq
  exfalso
  obtain ⟨q, n, f1, f2, f3⟩ := key jt passt st se t2 (by omega) m hm jp p hin (by omega) (by omega) (by rw [t3]; exact hwin)
    (by rw [lb, lc, t3, hwin]) (by
      intro g q hg hpq hsl
      rw [la g q hg hpq, lb] at hsl ⊢
      by_cases hne : poly32 3141592653 (window trgt q 4) = poly32 3141592653 (window trgt p 4)
      · exact hne
      · have := (C94_passed dbgE _ _ _ trgt jt passt st (by unfold walkFuel; omega) h0 se).1 _ hg
        exact absurd ⟨q, hpq, by dsimp only at this; omega, hsl, hne⟩ hq)
  unfold tryTrgt at t8
  simp only [hm] at t8
  rw [if_pos (by dsimp only at t5; omega)] at t8
  simp only [Outcome.bind_eq_ok] at t8
  obtain ⟨_, -, r, hr, t8⟩ := t8
  rw [f1] at hr
  cases hr
  simp only [t4] at t8
  rw [if_pos f2] at t8
  simp only [Outcome.bind_eq_ok] at t8
  obtain ⟨_, -, t8⟩ := t8
  split at t8
  · simp only [Outcome.bind_eq_ok] at t8
    obtain ⟨_, -, _, -, _, -, t8⟩ := t8
    cases t8
  · cases t8

/-! ## Examples -/

/-- Forty-five bytes without repetition. -/
def fortyFive : Bytes := (List.range 45).map fun i => UInt8.ofNat ((i * i * 3 + 7 * i) % 251 + 1)
/-- Fifty other ones. -/
def fifty : Bytes := (List.range 50).map fun i => UInt8.ofNat ((i * i * 4 + 10 * i) % 251 + 1)

/-- Four zeros, then four of the bytes again. -/
def fourAgain (s : Nat) : Bytes := [0, 0, 0, 0] ++ (fortyFive ++ fortyFive.extract s (s + 4) ++ fifty)

/-- The bytes from the ninth on are found again: a Copy from position 13 of the output (26 in zigzag code). -/
example : encode true storedCodec targetOnly none (fourAgain 9) ([] : Bytes) =
    (.ok (), [0, 4, 103, 0xC0 + 4, 0] ++ [0x80 + 45] ++ fortyFive ++ [0x40 + 4, 26] ++ [0x80 + 50] ++ fifty) := by decide +kernel

/-- Those from the eighth on are stored twice. -/
example : encode true storedCodec targetOnly none (fourAgain 8) ([] : Bytes) =
    (.ok (), [0, 2, 103, 0xC0 + 4, 0] ++ [0x80, 99, 0] ++ (fourAgain 8).drop 4) := by decide +kernel

example : StoredAt [.run 0 4, .add ((fourAgain 8).drop 4)] 12 ∧ StoredAt [.run 0 4, .add ((fourAgain 8).drop 4)] 49 :=
  ⟨⟨[.run 0 4], _, [], rfl, by decide, by decide⟩, ⟨[.run 0 4], _, [], rfl, by decide, by decide⟩⟩
example : window (fourAgain 8) 12 4 = window (fourAgain 8) 49 4 := by decide
example : poly32 3141592653 (window (fourAgain 8) 0 4) = 0 := by decide

/-- Indeed other bytes between belong into the same one of the `2 ^ 7` buckets. -/
example : ∃ q, 12 < q ∧ q < 49 ∧
    slot32 7 (poly32 3141592653 (window (fourAgain 8) q 4)) = slot32 7 (poly32 3141592653 (window (fourAgain 8) 12 4)) ∧
    poly32 3141592653 (window (fourAgain 8) q 4) ≠ poly32 3141592653 (window (fourAgain 8) 12 4) := by
  have : (List.range 49).any (fun q => decide (12 < q) &&
    (slot32 7 (poly32 3141592653 (window (fourAgain 8) q 4)) == slot32 7 (poly32 3141592653 (window (fourAgain 8) 12 4))) &&
    !(poly32 3141592653 (window (fourAgain 8) q 4) == poly32 3141592653 (window (fourAgain 8) 12 4))) = true := by decide +kernel
  obtain ⟨q, h1, h2⟩ := List.any_eq_true.1 this
  simp only [Bool.and_eq_true, decide_eq_true_eq, beq_iff_eq, Bool.not_eq_true', beq_eq_false_iff_ne] at h2
  exact ⟨q, h2.1.1, List.mem_range.1 h1, h2.1.2, h2.2⟩

/-- With a Run of `lazy_escape_len` bytes at the beginning. -/
def eightAgain (s : Nat) : Bytes := List.replicate 8 9 ++ (fortyFive ++ fortyFive.extract s (s + 4) ++ fifty)

example : encode true storedCodec { targetOnly with lazyEscapeLen := some 8 } none (eightAgain 9) ([] : Bytes) =
    (.ok (), [0, 4, 107, 0xC0 + 8, 9] ++ [0x80 + 45] ++ fortyFive ++ [0x40 + 4, 34] ++ [0x80 + 50] ++ fifty) := by decide +kernel
example : BehindLong 8 [.run 9 8, .add ((eightAgain 8).drop 8)] 16 :=
  ⟨[], .run 9 8, _, rfl, by decide, by decide, by decide, Or.inr ⟨9, 8, rfl⟩⟩

example (lazy : Option Nat) (s : Nat) : ∃ k cap, 2 ≤ k ∧ (k = 2 ∨ 2 ^ k ≤ min (2 ^ 23) ((eightAgain s).length + (eightAgain s).length / 2)) ∧
      min (2 ^ 23) ((eightAgain s).length + (eightAgain s).length / 2) < 2 ^ (k + 2) ∧
      ((none : Option Nat) = some cap ∨ (none : Option Nat) = none ∧ cap ≤ min (2 ^ 18) (eightAgain s).length ∧
        min (2 ^ 18) (eightAgain s).length ≤ 2 * cap + 1) ∧
      ∀ w w', encode true storedCodec { targetOnly with lazyEscapeLen := lazy } none (eightAgain s) w = (.ok (), w') →
      ∃ patch ss, w' = w ++ patch ∧ SectionsAt (VRead true) storedCodec ss patch [] ∧ Terminated ss ∧
        ∀ p t, StoredAt (ss.flatMap (·.2)) p → StoredAt (ss.flatMap (·.2)) t → p + 4 < t → t < p + cap →
          window (eightAgain s) p 4 = window (eightAgain s) t 4 →
          poly32 3141592653 (window (eightAgain s) 0 4) = 0 ∨ BehindLong (lazy.getD 90) (ss.flatMap (·.2)) p →
          ∃ q, p < q ∧ q < t ∧
            slot32 k (poly32 3141592653 (window (eightAgain s) q 4)) = slot32 k (poly32 3141592653 (window (eightAgain s) p 4)) ∧
            poly32 3141592653 (window (eightAgain s) q 4) ≠ poly32 3141592653 (window (eightAgain s) p 4) :=
  C98_not_stored_twice true true storedCodec { targetOnly with lazyEscapeLen := lazy } ⟨27, 11, none⟩ rfl (by decide) none (eightAgain s)
    (by decide) (by
      have : (eightAgain s).length ≤ 8 + (45 + 45 + 50) := by
        simp only [eightAgain, List.length_append, List.length_replicate, List.extract_eq_take_drop, List.length_take, List.length_drop,
          fortyFive, fifty, List.length_map, List.length_range]
        omega
      exact Nat.lt_of_le_of_lt this (by decide))
    (by rintro (h | h) <;> cases h) (Or.inl rfl)

end Smdiff
