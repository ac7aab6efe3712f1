import Verif.SpecJoin
import Verif.Props.Decoder
import Verif.Props.Off
/-!
# C113: joining patches
-/
namespace Smdiff
open Spec

theorem headerEnc_more {V : Bytes → Nat → Prop} {h : Header} {hb : Bytes} (hm : h.more = false) (he : HeaderEnc V h hb) :
    ∃ (b : UInt8) (y : Bytes), b.toNat < 128 ∧ hb = b :: y ∧ HeaderEnc V { h with more := true } ((b + 128) :: y) := by
  obtain ⟨h1, h2, b1, b2, b3, k1, k2, k3, rfl⟩ := he
  have hc : h.control < 128 := by
    rw [Header.control, hm]
    split <;> simp <;> omega
  refine ⟨_, _, ?_, rfl, h1, h2, b1, b2, b3, k1, k2, k3, ?_⟩
  · rw [UInt8.toNat_ofNat']; omega
  · congr 1
    have e : ({ h with more := true } : Header).control = h.control + 128 := by
      simp [Header.control, hm]
    rw [e]
    apply UInt8.toNat_inj.1
    simp

/-- **C113** (the bytes). In every patch one byte can be given its highest bit, so that other patches can stand behind it:
what is then there is one patch of all the sections. -/
theorem C113_join (V : Bytes → Nat → Prop) (ss : List (Header × List Op)) (p : Bytes) (h : PatchEnc V ss p) :
    ∃ p' : Bytes, BitSet p p' ∧ ∀ ss2 p2, PatchEnc V ss2 p2 → PatchEnc V (continued ss ++ ss2) (p' ++ p2) := by
  induction h with
  | last hd ops bs hm he =>
    obtain ⟨hb, ob, h1, h2, rfl⟩ := he
    obtain ⟨b, y, k1, rfl, k2⟩ := headerEnc_more hm h1
    refine ⟨(b + 128) :: (y ++ ob), ⟨[], y ++ ob, b, k1, rfl, rfl⟩, fun ss2 p2 h' => ?_⟩
    exact .more _ _ _ _ _ rfl ⟨(b + 128) :: y, ob, k2, h2, rfl⟩ h'
  | more hd ops bs ss bss hm he _ ih =>
    obtain ⟨p', ⟨x, y, b, k0, rfl, rfl⟩, k⟩ := ih
    refine ⟨bs ++ (x ++ (b + 128) :: y), ⟨bs ++ x, y, b, k0, by simp, by simp⟩, fun ss2 p2 h' => ?_⟩
    have e : ({ hd with more := true } : Header) = hd := by cases hd; simp_all
    simp only [continued, List.map_cons, e, List.cons_append, List.append_assoc]
    have := PatchEnc.more hd ops bs _ _ hm he (k ss2 p2 h')
    simpa [continued] using this

theorem exec_shift {src : Option Bytes} {o1 : Bytes} {n : Nat} (hn : n = o1.length) : ∀ {ops : List Op} {out o2 : Bytes},
    (∀ a len, Op.copy .output a len ∈ ops → a.toNat + n < 2 ^ 64) →
    exec src ops out = some o2 → exec src (ops.map (shift n)) (o1 ++ out) = some (o1 ++ o2) := by
  intro ops
  induction ops with
  | nil => intro out o2 _ h; simp only [exec, Option.some.injEq] at h; subst h; rfl
  | cons op ops ih =>
    intro out o2 ha h
    simp only [exec, Option.bind_eq_some_iff] at h
    obtain ⟨bs, h1, h2⟩ := h
    simp only [List.map_cons, exec, Option.bind_eq_some_iff]
    refine ⟨bs, ?_, by rw [List.append_assoc]; exact ih (fun a len hm => ha a len (by simp [hm])) h2⟩
    rcases op with ⟨b, k⟩ | ⟨s | s, a, k⟩ | xs
    · exact h1
    · exact h1
    · have := ha a k (by simp)
      have e : (UInt64.ofNat (a.toNat + n)).toNat = a.toNat + n := by rw [UInt64.toNat_ofNat']; omega
      simp only [shift, produce, e]
      simp only [produce] at h1
      unfold range at h1 ⊢
      split at h1
      · next hc =>
        rw [if_pos (by simp only [List.length_append]; omega), ← h1]
        rw [show a.toNat + n = o1.length + a.toNat by omega, ← List.drop_drop, List.drop_left]
      · cases h1
    · exact h1

theorem shift_none {n : Nat} {ops : List Op} (h : NoCopyO ops) : ops.map (shift n) = ops := by
  conv_rhs => rw [← List.map_id ops]
  refine List.map_congr_left fun op ho => ?_
  rcases op with _ | ⟨_ | _, a, k⟩ | _
  · rfl
  · rfl
  · exact absurd ho (h a k)
  · rfl

/-- **C113** (the meaning). Operations for two files, one behind the other, are operations for both files, one behind the
other, if the copies from the output of the second count from the end of the first. -/
theorem C113_meaning (src : Option Bytes) (a b : List Op) (o1 o2 : Bytes) (h1 : meaning src a = some o1)
    (h2 : meaning src b = some o2) (hf : ∀ ad len, Op.copy .output ad len ∈ b → ad.toNat + o1.length < 2 ^ 64) :
    meaning src (a ++ b.map (shift o1.length)) = some (o1 ++ o2) := by
  rw [meaning, exec_append]
  have h1' : exec src a [] = some o1 := h1
  rw [h1', Option.bind_some]
  have := exec_shift (src := src) (o1 := o1) rfl hf (out := []) h2
  simpa using this

/-- **C113** (two patches). Two patches of uncompressed sections, the second without copies from the output: one
bit of the first is set, the second is appended, and the result gives the first file followed by the second. -/
theorem C113_apply (dbg : Bool) (cdc : Codec) (src : Option Bytes) (ss1 ss2 : List (Header × List Op)) (p1 p2 o1 o2 : Bytes)
    (h1 : PatchEnc (VAcc dbg) ss1 p1) (h2 : PatchEnc (VAcc dbg) ss2 p2)
    (hc : ∀ s ∈ ss1 ++ ss2, Consistent s.1 s.2) (hal : ∀ s ∈ ss1 ++ ss2, s.1.algo ≠ 1 ∧ s.1.algo ≠ 2 ∧ s.1.algo ≠ 3)
    (m1 : meaning src (ss1.flatMap (·.2)) = some o1) (m2 : meaning src (ss2.flatMap (·.2)) = some o2)
    (hno : NoCopyO (ss2.flatMap (·.2))) :
    ∃ p' : Bytes, BitSet p1 p' ∧
      applyPatch dbg cdc src (p' ++ p2) .empty = (.ok (), ⟨o1 ++ o2, (o1 ++ o2).length⟩) := by
  obtain ⟨p', k1, k2⟩ := C113_join _ _ _ h1
  refine ⟨p', k1, ?_⟩
  have hf : (continued ss1).flatMap (·.2) = ss1.flatMap (·.2) := by
    simp [continued, List.flatMap_map]
  have := C20_meaning_is_ok dbg cdc src _ _ [] (o1 ++ o2) (k2 _ _ h2) (fun s hs => ?_) (fun s hs => ?_) ?_
  · simpa using this
  · rcases List.mem_append.1 hs with hs | hs
    · obtain ⟨t, ht, rfl⟩ := List.mem_map.1 hs
      exact hc t (by simp [ht])
    · exact hc s (by simp [hs])
  · rcases List.mem_append.1 hs with hs | hs
    · obtain ⟨t, ht, rfl⟩ := List.mem_map.1 hs
      exact hal t (by simp [ht])
    · exact hal s (by simp [hs])
  · rw [List.flatMap_append, hf, ← shift_none (n := o1.length) hno]
    exact C113_meaning src _ _ _ _ m1 m2 fun a len hm => absurd hm (hno a len)

theorem encode_grammar {dbg dbgR : Bool} {cdc : Codec} {cfg : EncoderConfig} {dict : Option Bytes} (hm : cfg.matchTrgt = none)
    (hn : cfg.secComp = none) (hs : (dict.getD []).length < 2 ^ 63) (t q : Bytes) (ht : t.length < 2 ^ 63)
    (e : encode dbg cdc cfg dict t ([] : Bytes) = (.ok (), q)) :
    ∃ ss, PatchEnc (VAcc dbgR) ss q ∧ (∀ s ∈ ss, Consistent s.1 s.2) ∧ (∀ s ∈ ss, s.1.algo = 0) ∧
      meaning dict (ss.flatMap (·.2)) = some t ∧
      ((∀ i b, (t.drop i).take 372 ≠ List.replicate 372 b) → NoCopyO (ss.flatMap (·.2))) := by
  have e' : encodePlain dbg cfg dict t ([] : Bytes) = (.ok (), q) := by
    rw [← e]; unfold encode encodePlain; rw [hn]; rfl
  obtain ⟨ops, ho⟩ := encodePlain_inv hs ht e'
  obtain ⟨ss, bs, h1, -, h2, h3, h4, h5, h6⟩ := encodePlain_spec dbg dbgR cfg dict t hs ht ho
  rw [h1] at e'
  simp only [List.nil_append, Prod.mk.injEq, true_and] at e'
  subst e'
  refine ⟨ss, h2, h3, h4, h5, fun hrun a n hmem => ?_⟩
  have hflat : ss.flatMap (·.2) = ops := by
    have hem := encodeOps_emits (by omega) (by omega) ho
    rw [← (encodeSecs_ok (cfg := cfg) hs ht hem).2.2.1, List.flatMap_def, List.flatMap_def, h6]
  rw [hflat] at hmem
  rcases encodeOps_mem ho (s := true) (t := false) (by simp) (fun _ => hm) hmem with
    ⟨h, -⟩ | ⟨-, h⟩ | ⟨-, b, len, q, ⟨k1, k2⟩, rfl, k3, k4⟩
  · cases h
  · cases h
  · refine hrun q b (List.ext_getElem? fun i => ?_)
    by_cases hi : i < 372
    · rw [List.getElem?_take_of_lt hi, List.getElem?_drop, k2 i (by omega), List.getElem?_replicate, if_pos hi]
    · rw [List.getElem?_take, if_neg hi, List.getElem?_replicate, if_neg hi]

/-- **C113** (in pieces). A file can be encoded in pieces: each piece on its own with the same dictionary, without secondary
compression and without target matching, and no piece behind the first has 372 equal bytes in a row.  When one bit is set
in each patch but the last, they can be written one behind the other, and are a patch for the whole file. -/
theorem C113_pieces (dbg dbgR : Bool) (cdc cdcR : Codec) (cfg : EncoderConfig) (dict : Option Bytes)
    (hm : cfg.matchTrgt = none) (hn : cfg.secComp = none) (hs : (dict.getD []).length < 2 ^ 63)
    (first : Bytes) (pieces : List Bytes) (hl : ∀ t ∈ first :: pieces, t.length < 2 ^ 63)
    (hr : ∀ t ∈ pieces, ∀ i b, (t.drop i).take 372 ≠ List.replicate 372 b)
    (p : Bytes) (ps : List Bytes) (he : encode dbg cdc cfg dict first ([] : Bytes) = (.ok (), p))
    (hes : List.Forall₂ (fun t q => encode dbg cdc cfg dict t ([] : Bytes) = (.ok (), q)) pieces ps) :
    ∃ (qs : List Bytes) (last : Bytes), List.Forall₂ BitSet ((p :: ps).dropLast) qs ∧ (p :: ps).getLast? = some last ∧
      applyPatch dbgR cdcR dict (qs.flatten ++ last) .empty =
        (.ok (), ⟨(first :: pieces).flatten, (first :: pieces).flatten.length⟩) := by
  -- what is encoded, in the grammar
  have enc : ∀ t q : Bytes, t.length < 2 ^ 63 → encode dbg cdc cfg dict t ([] : Bytes) = (.ok (), q) →
      ∃ ss, PatchEnc (VAcc dbgR) ss q ∧ (∀ s ∈ ss, Consistent s.1 s.2) ∧ (∀ s ∈ ss, s.1.algo = 0) ∧
        meaning dict (ss.flatMap (·.2)) = some t ∧
        ((∀ i b, (t.drop i).take 372 ≠ List.replicate 372 b) → NoCopyO (ss.flatMap (·.2))) := fun t q ht e =>
    encode_grammar hm hn hs t q ht e
  -- all pieces
  have main : ∀ (pieces ps : List Bytes) (first p : Bytes),
      List.Forall₂ (fun t q => encode dbg cdc cfg dict t ([] : Bytes) = (.ok (), q)) pieces ps →
      encode dbg cdc cfg dict first ([] : Bytes) = (.ok (), p) → (∀ t ∈ first :: pieces, t.length < 2 ^ 63) →
      (∀ t ∈ pieces, ∀ i b, (t.drop i).take 372 ≠ List.replicate 372 b) →
      ∃ (qs : List Bytes) (last : Bytes) (ss : List (Header × List Op)),
        List.Forall₂ BitSet ((p :: ps).dropLast) qs ∧ (p :: ps).getLast? = some last ∧
        PatchEnc (VAcc dbgR) ss (qs.flatten ++ last) ∧ (∀ s ∈ ss, Consistent s.1 s.2) ∧ (∀ s ∈ ss, s.1.algo = 0) ∧
        meaning dict (ss.flatMap (·.2)) = some (first :: pieces).flatten ∧
        ((∀ t ∈ first :: pieces, ∀ i b, (t.drop i).take 372 ≠ List.replicate 372 b) → NoCopyO (ss.flatMap (·.2))) := by
    intro pieces ps first p hes
    induction hes generalizing first p with
    | nil =>
      intro he hl _
      obtain ⟨ss, h1, h2, h3, h4, h5⟩ := enc first p (hl first (by simp)) he
      exact ⟨[], p, ss, .nil, rfl, by simpa using h1, h2, h3, by simpa using h4, fun hr => h5 (hr first (by simp))⟩
    | cons h _ ih =>
      next t q ts qs' _ =>
      intro he hl hr
      obtain ⟨ss, h1, h2, h3, h4, h5⟩ := enc first p (hl first (by simp)) he
      obtain ⟨qs, last, ss', g1, g2, g3, g4, g5, g6, g7⟩ := ih t q h (fun x hx => hl x (List.mem_cons_of_mem _ hx))
        (fun x hx => hr x (by simp [hx]))
      obtain ⟨p', k1, k2⟩ := C113_join _ _ _ h1
      have hf : (continued ss).flatMap (·.2) = ss.flatMap (·.2) := by simp [continued, List.flatMap_map]
      have hno := g7 hr
      refine ⟨p' :: qs, last, continued ss ++ ss', ?_, ?_, ?_, ?_, ?_, ?_, ?_⟩
      · rw [List.dropLast_cons_of_ne_nil (by simp)]
        exact .cons k1 g1
      · rw [List.getLast?_cons_cons]
        exact g2
      · rw [List.flatten_cons, List.append_assoc]
        exact k2 _ _ g3
      · intro s hs'
        rcases List.mem_append.1 hs' with hs' | hs'
        · obtain ⟨x, hx, rfl⟩ := List.mem_map.1 hs'
          exact h2 x hx
        · exact g4 s hs'
      · intro s hs'
        rcases List.mem_append.1 hs' with hs' | hs'
        · obtain ⟨x, hx, rfl⟩ := List.mem_map.1 hs'
          exact h3 x hx
        · exact g5 s hs'
      · rw [List.flatMap_append, hf, ← shift_none (n := first.length) hno, List.flatten_cons]
        exact C113_meaning dict _ _ _ _ h4 g6 fun a len hm => absurd hm (hno a len)
      · intro hr' a n hmem
        rw [List.flatMap_append, hf] at hmem
        rcases List.mem_append.1 hmem with hmem | hmem
        · exact h5 (hr' first (by simp)) a n hmem
        · exact hno a n hmem
  obtain ⟨qs, last, ss, g1, g2, g3, g4, g5, g6, -⟩ := main pieces ps first p hes he hl hr
  refine ⟨qs, last, g1, g2, ?_⟩
  have := C20_meaning_is_ok dbgR cdcR dict ss _ [] _ g3 g4 (fun s hs => by rw [g5 s hs]; decide) g6
  simpa using this

/-- **C113** (not with output copies). Long runs are lengthened by copies from the output, and such a patch must not be
appended: joined with a piece of one byte, the patch for 372 times the byte 7 gives something else. -/
theorem C113_runs_break : ∃ p q : Bytes, encode true storedCodec EncoderConfig.default (some [1, 2, 3]) [9] ([] : Bytes) = (.ok (), p) ∧
    encode true storedCodec EncoderConfig.default (some [1, 2, 3]) (List.replicate 372 7) ([] : Bytes) = (.ok (), q) ∧
    ∀ p', BitSet p p' → (applyPatch true storedCodec (some [1, 2, 3]) (p' ++ q) .empty).2.data ≠ 9 :: List.replicate 372 7 ∨
      (applyPatch true storedCodec (some [1, 2, 3]) (p' ++ q) .empty).1 ≠ .ok () := by
  refine ⟨[0, 1, 1, 0xC1, 9], [0, 4, 244, 2, 0xFE, 7, 0xFE, 7, 0xFE, 7, 0x40, 186, 0, 0], by decide +kernel, by decide +kernel, ?_⟩
  rintro p' ⟨x, y, b, h1, h2, rfl⟩
  rcases x with _ | ⟨x0, _ | ⟨x1, _ | ⟨x2, _ | ⟨x3, _ | ⟨x4, x⟩⟩⟩⟩⟩ <;>
    simp only [List.nil_append, List.cons_append, List.cons.injEq] at h2
  · obtain ⟨rfl, rfl⟩ := h2; decide +kernel
  · obtain ⟨rfl, rfl, rfl⟩ := h2; decide +kernel
  · obtain ⟨rfl, rfl, rfl, rfl⟩ := h2; decide +kernel
  · obtain ⟨rfl, rfl, rfl, rfl, rfl⟩ := h2
    exact absurd h1 (by decide)
  · obtain ⟨rfl, rfl, rfl, rfl, rfl, rfl⟩ := h2; decide +kernel
  · simp at h2

/-! ### The hypotheses are met -/

/-- Two pieces, encoded separately. -/
example : encode true storedCodec EncoderConfig.default none [1, 2, 3] ([] : Bytes) = (.ok (), [0, 1, 3, 0x83, 1, 2, 3]) ∧
    List.Forall₂ (fun t q => encode true storedCodec EncoderConfig.default none t ([] : Bytes) = (.ok (), q))
      [[4, 5], [6]] [[0, 1, 2, 0x82, 4, 5], [0, 1, 1, 0xC1, 6]] ∧
    EncoderConfig.default.matchTrgt = none ∧ EncoderConfig.default.secComp = none ∧
    (∀ t ∈ ([[4, 5], [6]] : List Bytes), ∀ i b, (t.drop i).take 372 ≠ List.replicate 372 b) := by
  refine ⟨by decide +kernel, .cons (by decide +kernel) (.cons (by decide +kernel) .nil), rfl, rfl, ?_⟩
  intro t ht i b h
  have := congrArg List.length h
  simp only [List.length_take, List.length_drop, List.length_replicate] at this
  simp only [List.mem_cons, List.not_mem_nil, or_false] at ht
  rcases ht with rfl | rfl <;> simp at this <;> omega

/-- The three patches, joined: `0` became `128` in the first two. -/
example (cdc : Codec) : applyPatch true cdc none
    [128, 1, 3, 0x83, 1, 2, 3, 128, 1, 2, 0x82, 4, 5, 0, 1, 1, 0xC1, 6] .empty = (.ok (), ⟨[1, 2, 3, 4, 5, 6], 6⟩) := by
  rfl

/-- Operations with a copy from the output, and how they continue another file. -/
example : meaning none [.add [1, 2], .copy .output 0 2] = some [1, 2, 1, 2] ∧
    meaning none ([.add [9]] ++ [.add [1, 2], .copy .output 0 2].map (shift 1)) = some [9, 1, 2, 1, 2] := by
  decide

end Smdiff
