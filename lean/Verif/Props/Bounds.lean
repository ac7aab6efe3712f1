import Verif.Lemmas.Dict
import Verif.Props.Decoder
/-!
# C67, C68: what a patch reads of its dictionary, and how much it can expand
-/
namespace Smdiff
open Spec

/-! ## C67 -/

/-- **C67.** If a patch is applied successfully then the ranges of its dictionary copies lie in the dictionary, and every
other dictionary that has the same bytes in these ranges - whatever it holds elsewhere, and however long it is - gives
the same result, on any sink. -/
theorem C67_only_ranges_read (dbg : Bool) (cdc : Codec) (d patch : Bytes) (sink c : Cursor)
    (h : applyPatch dbg cdc (some d) patch sink = (.ok (), c)) :
    ∃ ss rest, SectionsAt (VRead dbg) cdc ss patch rest ∧ Terminated ss ∧
      (∀ a n, Op.copy .dict a n ∈ ss.flatMap (·.2) → n.toNat = 0 ∨ a.toNat + n.toNat ≤ d.length) ∧
      ∀ d' : Bytes, (∀ a n, Op.copy .dict a n ∈ ss.flatMap (·.2) → range d' a.toNat n.toNat = range d a.toNat n.toNat) →
        applyPatch dbg cdc (some d') patch sink = (.ok (), c) := by
  rw [applyPatch_eq] at h
  rcases hx : applyLoop (readSectionComp dbg cdc) (some d) (patch.length + 2) (.new patch) 0 sink with ⟨r, rest, c'⟩
  rw [hx] at h
  simp only [Prod.mk.injEq] at h
  obtain ⟨rfl, rfl⟩ := h
  obtain ⟨ss, h1, h2, h3, h4⟩ := applyLoop_agree hx
  obtain ⟨hs, g1, g2, g3, -⟩ := sectionsAt_of_readSeq h1
  rw [← flatMap_snd_eq g2] at h3 h4
  refine ⟨hs, rest, g1, terminated_of_moreBits h2 g3, fun a n hm => ?_, fun d' hd => ?_⟩
  · have := h3 a n hm
    simp only [dictRange, Option.bind_some, range] at this
    split at this
    · assumption
    · simp at this
  · have := h4 (some d') (fun a n hm => by simpa [dictRange] using hd a n hm)
    rw [applyPatch_eq]
    show ((applyLoop (readSectionComp dbg cdc) (some d') (patch.length + 2) ⟨patch, false⟩ 0 sink).1,
      (applyLoop (readSectionComp dbg cdc) (some d') (patch.length + 2) ⟨patch, false⟩ 0 sink).2.2) = _
    rw [this]

/-- **C67.** In particular bytes appended to the dictionary change nothing. -/
theorem C67_longer_dictionary (dbg : Bool) (cdc : Codec) (d extra patch : Bytes) (sink c : Cursor)
    (h : applyPatch dbg cdc (some d) patch sink = (.ok (), c)) :
    applyPatch dbg cdc (some (d ++ extra)) patch sink = (.ok (), c) := by
  obtain ⟨ss, rest, -, -, h1, h2⟩ := C67_only_ranges_read dbg cdc d patch sink c h
  refine h2 _ fun a n hm => ?_
  have := h1 a n hm
  rw [range, range, if_pos this, if_pos (by simp only [List.length_append]; omega)]
  rcases this with h | h
  · simp [h]
  · rw [List.drop_append_of_le_length (by omega), List.take_append_of_le_length (by simp only [List.length_drop]; omega)]

/-- The demonstration patch copies the bytes 1, 2 and 3 of the dictionary `[10, 11, 12, 13]`; another first byte and more
bytes behind change nothing. -/
example (cdc : Codec) : applyPatch true cdc (some ([10, 11, 12, 13] ++ [1, 2])) demoPatch .empty
    = (.ok (), ⟨[5, 6, 6, 11, 12, 13, 6, 11, 7, 8], 10⟩) :=
  C67_longer_dictionary _ _ _ _ _ _ _ (demo_apply true cdc)

/-! ## C68 -/

theorem vread_pos {dbg : Bool} {bs : Bytes} {v : Nat} (h : VRead dbg bs v) : 1 ≤ bs.length := by
  have key : ∀ n, Leb bs n → 1 ≤ bs.length := by
    intro n h
    cases h <;> simp
  unfold VRead at h
  split at h
  · obtain ⟨n, h, -⟩ := h; exact key n h
  · obtain ⟨n, h, -⟩ := h; exact key n h

theorem sizeEnc_expand {ty : Nat} {bs : Bytes} {n : Nat} (h : SizeEnc ty bs n) : 4 * n ≤ 65535 * (bs.length + 1) := by
  cases h with
  | short => simp only [List.length_cons, List.length_nil]; omega
  | mid v => have := v.toNat_lt; simp only [List.length_cons, List.length_nil]; omega
  | long lo hi => have := lo.toNat_lt; have := hi.toNat_lt; simp only [List.length_cons, List.length_nil]; omega

theorem opEnc_expand {dbg inl : Bool} {d o d' o' : UInt64} {op : Op} {bs : Bytes}
    (h : OpEnc (VRead dbg) inl d o op bs d' o') :
    4 * opLen op ≤ 65535 * (bs.length + if inl then 0 else (opAdd op).length) := by
  cases h with
  | run b n h1 h2 => simp only [opLen, List.length_cons, List.length_nil]; omega
  | add hd bs h =>
    cases inl <;> simp only [opLen, opAdd, List.length_append, if_true, Bool.false_eq_true, if_false,
      List.length_nil] <;> omega
  | copyD a n hd vb dl h1 h2 h3 =>
    have := sizeEnc_expand h1
    have := vread_pos h2
    simp only [opLen, List.length_append]
    omega
  | copyO a n hd vb dl h1 h2 h3 =>
    have := sizeEnc_expand h1
    have := vread_pos h2
    simp only [opLen, List.length_append]
    omega

theorem opsEnc_expand {dbg inl : Bool} {ops : List Op} : ∀ {d o : UInt64} {bs : Bytes},
    OpsEnc (VRead dbg) inl d o ops bs →
    4 * totalLen ops ≤ 65535 * (bs.length + if inl then 0 else (addBytes ops).length) := by
  induction ops with
  | nil => intro d o bs h; simp [totalLen]
  | cons op ops ih =>
    intro d o bs h
    cases h with
    | cons _ _ d' o' _ _ b bss h1 h2 =>
      have e1 := opEnc_expand h1
      have e2 := ih h2
      have e3 : totalLen (op :: ops) = opLen op + totalLen ops := by simp [totalLen]
      have e4 : (addBytes (op :: ops)).length = (opAdd op).length + (addBytes ops).length := by simp [addBytes]
      rw [e3, e4, List.length_append]
      cases inl <;> simp only [if_true, Bool.false_eq_true, if_false] at e1 e2 ⊢ <;> omega

theorem bodyEnc_expand {dbg seg : Bool} {ops : List Op} {bs : Bytes} (h : BodyEnc (VRead dbg) seg ops bs) :
    4 * totalLen ops ≤ 65535 * bs.length := by
  obtain ⟨ib, h, rfl⟩ := h
  have := opsEnc_expand h
  cases seg <;> simp only [Bool.not_true, Bool.not_false, if_true, Bool.false_eq_true, if_false, List.length_append,
    List.length_nil] at this ⊢ <;> omega

theorem sectionEnc_expand {dbg : Bool} {h : Header} {ops : List Op} {bs : Bytes}
    (e : SectionEnc (VRead dbg) h ops bs) : 4 * totalLen ops ≤ 65535 * bs.length := by
  obtain ⟨hb, ob, -, e, rfl⟩ := e
  have := bodyEnc_expand e
  rw [List.length_append]
  omega

theorem patchEnc_expand {dbg : Bool} {ss : List (Header × List Op)} {bs : Bytes} (h : PatchEnc (VRead dbg) ss bs) :
    4 * totalLen (ss.flatMap (·.2)) ≤ 65535 * bs.length := by
  induction h with
  | last h ops bs _ e => simpa using sectionEnc_expand e
  | more h ops bs ss bss _ e _ ih =>
    have := sectionEnc_expand e
    simp only [List.flatMap_cons, totalLen_append, List.length_append]
    omega

/-- No section is compressed with zstd or brotli, or with anything if `plain`. -/
def OwnFormat (plain : Bool) (ss : List (Header × List Op)) : Prop :=
  ∀ s ∈ ss, s.1.algo ≠ 2 ∧ s.1.algo ≠ 3 ∧ (plain = true → s.1.algo ≠ 1)

theorem sectionsAt_expand {dbg : Bool} {cdc : Codec} {ss : List (Header × List Op)} :
    ∀ {s rest : Bytes}, SectionsAt (VRead dbg) cdc ss s rest →
    (OwnFormat true ss → 4 * totalLen (ss.flatMap (·.2)) + 65535 * rest.length ≤ 65535 * s.length) ∧
    (OwnFormat false ss → 16 * totalLen (ss.flatMap (·.2)) + 65535 ^ 2 * rest.length ≤ 65535 ^ 2 * s.length) := by
  induction ss with
  | nil => intro s rest h; cases h; simp [totalLen]
  | cons t ss ih =>
    intro s rest h
    cases h with
    | cons hd ops _ _ s' _ h1 h2 =>
      obtain ⟨i1, i2⟩ := ih h2
      obtain ⟨hb, s1, rfl, -, h3, -⟩ := h1
      have key : hd.algo ≠ 2 → hd.algo ≠ 3 →
          (hd.algo ≠ 1 → 4 * totalLen ops + 65535 * s'.length ≤ 65535 * s1.length) ∧
          (16 * totalLen ops + 65535 ^ 2 * s'.length ≤ 65535 ^ 2 * s1.length) := by
        intro a2 a3
        unfold BodyAt at h3
        by_cases a1 : hd.algo = 1
        · rw [if_pos a1] at h3
          obtain ⟨is, pay, body, extra, rfl, e1, e2, e3⟩ := h3
          have b1 := patchEnc_expand e1
          have b2 := bodyEnc_expand e3
          have b3 := exec_length (show exec none _ [] = some _ from e2)
          simp only [List.length_append, List.length_nil] at b3
          exact ⟨fun h => absurd a1 h, by rw [List.length_append]; omega⟩
        · rw [if_neg a1, if_neg a2, if_neg a3] at h3
          obtain ⟨body, rfl, e3⟩ := h3
          have b2 := bodyEnc_expand e3
          exact ⟨fun _ => by rw [List.length_append]; omega, by rw [List.length_append]; omega⟩
      refine ⟨fun hp => ?_, fun hp => ?_⟩
      · obtain ⟨p2, p3, p1⟩ := hp (hd, ops) (by simp)
        have := (key p2 p3).1 (p1 rfl)
        have := i1 fun t ht => hp t (by simp [ht])
        simp only [List.flatMap_cons, totalLen_append, List.length_append]
        omega
      · obtain ⟨p2, p3, -⟩ := hp (hd, ops) (by simp)
        have := (key p2 p3).2
        have := i2 fun t ht => hp t (by simp [ht])
        simp only [List.flatMap_cons, totalLen_append, List.length_append]
        omega

/-- **C68.** A patch cannot expand without bound: if no section is compressed, the file a successful application writes
has at most `65535/4` bytes per byte of the patch; if some sections are SMDIFF-compressed (identifier 1) but none by zstd
or brotli, at most the square of that. -/
theorem C68_expansion (dbg : Bool) (cdc : Codec) (src : Option Bytes) (patch : Bytes) (c : Cursor)
    (h : applyPatch dbg cdc src patch .empty = (.ok (), c)) :
    ∃ ss rest, SectionsAt (VRead dbg) cdc ss patch rest ∧ Terminated ss ∧
      meaning src (ss.flatMap (·.2)) = some c.data ∧
      ((∀ s ∈ ss, s.1.algo ≠ 1 ∧ s.1.algo ≠ 2 ∧ s.1.algo ≠ 3) → 4 * c.data.length ≤ 65535 * patch.length) ∧
      ((∀ s ∈ ss, s.1.algo ≠ 2 ∧ s.1.algo ≠ 3) → 16 * c.data.length ≤ 65535 ^ 2 * patch.length) := by
  obtain ⟨ss, rest, h1, h2, h3⟩ := C20_ok_is_meaning dbg cdc src patch c h
  obtain ⟨e1, e2⟩ := sectionsAt_expand h1
  have b := exec_length (show exec src _ [] = some _ from h3)
  simp only [List.length_nil, Nat.zero_add] at b
  refine ⟨ss, rest, h1, h2, h3, fun hp => ?_, fun hp => ?_⟩
  · have := e1 fun s hs => ⟨(hp s hs).2.1, (hp s hs).2.2, fun _ => (hp s hs).1⟩
    omega
  · have := e2 fun s hs => ⟨(hp s hs).1, (hp s hs).2, by simp⟩
    omega

/-- The factor is attained but for the header: every further copy of 65535 bytes needs four bytes. -/
theorem C68_sharp (dbg : Bool) : ∃ (op : Op) (bs : Bytes), OpEnc (VRead dbg) true 0 0 op bs 0 0 ∧
    4 * opLen op = 65535 * bs.length := by
  refine ⟨.copy .dict 0 65535, [0, 255, 255] ++ [0], .copyD _ _ _ _ _ _ 0 (.long 255 255) ?_ ?_, rfl⟩
  · have : UVar [0] 0 := ⟨.last 0 (by decide), by decide, by decide⟩
    exact UVar.read this
  · exact ⟨by decide, by decide, rfl⟩

theorem sectionsAt_refused {V : Bytes → Nat → Prop} {cdc : Codec}
    (hz : ∀ s t, cdc.zstdDecode s ≠ .ok t) (hb : ∀ s t, cdc.brotliDecode s ≠ .ok t) {ss : List (Header × List Op)} :
    ∀ {s rest : Bytes}, SectionsAt V cdc ss s rest → ∀ t ∈ ss, t.1.algo ≠ 2 ∧ t.1.algo ≠ 3 := by
  induction ss with
  | nil => simp
  | cons t ss ih =>
    intro s rest h x hx
    cases h with
    | cons hd ops _ _ s' _ h1 h2 =>
      rcases List.mem_cons.1 hx with rfl | hx
      · obtain ⟨_, _, -, -, h3, -⟩ := h1
        unfold BodyAt at h3
        refine ⟨fun e => ?_, fun e => ?_⟩ <;> simp only at e <;> rw [e] at h3
        · simp only [Nat.reduceEqDiff, if_false, if_true] at h3
          obtain ⟨_, _, _, h, -⟩ := h3
          exact hz _ _ h
        · simp only [Nat.reduceEqDiff, if_false, if_true] at h3
          obtain ⟨_, _, _, h, -⟩ := h3
          exact hb _ _ h
      · exact ih h2 x hx

/-- **C68.** With compression libraries that refuse every input, every successful application obeys the bound. -/
theorem C68_without_libraries (dbg : Bool) (cdc : Codec) (hz : ∀ s t, cdc.zstdDecode s ≠ .ok t)
    (hb : ∀ s t, cdc.brotliDecode s ≠ .ok t) (src : Option Bytes) (patch : Bytes) (c : Cursor)
    (h : applyPatch dbg cdc src patch .empty = (.ok (), c)) : 16 * c.data.length ≤ 65535 ^ 2 * patch.length := by
  obtain ⟨ss, rest, h1, -, -, -, h2⟩ := C68_expansion dbg cdc src patch c h
  exact h2 (sectionsAt_refused hz hb h1)

/-- Libraries that refuse everything, and a patch that is applied with them. -/
def refusingCodec : Codec where
  zstdEncode _ := .err .library
  brotliEncode _ := .err .library
  zstdDecode _ := .err .library
  brotliDecode _ := .err .library

example : (∀ s t, refusingCodec.zstdDecode s ≠ .ok t) ∧ (∀ s t, refusingCodec.brotliDecode s ≠ .ok t) ∧
    applyPatch true refusingCodec (some [10, 11, 12, 13]) demoPatch .empty
      = (.ok (), ⟨[5, 6, 6, 11, 12, 13, 6, 11, 7, 8], 10⟩) :=
  ⟨by simp [refusingCodec], by simp [refusingCodec], demo_apply _ _⟩

end Smdiff
