import Verif.SpecHash
import Verif.Props.Join
/-!
# C115: parts of a patch
-/
namespace Smdiff
open Spec

/-- The header with or without the bit that says that another section follows. -/
def SectionHeader.withMore (h : SectionHeader) (m : Bool) : SectionHeader := { h with moreSections := m }

theorem u8_and (b : UInt8) : (b &&& 127).toNat < 128 ∧ (b &&& 127) &&& 127 = b &&& 127 ∧
    ((b &&& 127) + 128) &&& 127 = b &&& 127 ∧ (b &&& 127) &&& 128 ≠ 128 ∧ ((b &&& 127) + 128) &&& 128 = 128 ∧
    (b = if b &&& 128 = 128 then (b &&& 127) + 128 else b &&& 127) := by
  have key : ∀ v : BitVec 8, (v &&& 127#8).toNat < 128 ∧ (v &&& 127#8) &&& 127#8 = v &&& 127#8 ∧
      ((v &&& 127#8) + 128#8) &&& 127#8 = v &&& 127#8 ∧ (v &&& 127#8) &&& 128#8 ≠ 128#8 ∧
      ((v &&& 127#8) + 128#8) &&& 128#8 = 128#8 ∧
      ((v &&& 128#8 = 128#8 ∧ v = (v &&& 127#8) + 128#8) ∨ (v &&& 128#8 ≠ 128#8 ∧ v = v &&& 127#8)) := by decide
  obtain ⟨h1, h2, h3, h4, h5, h6⟩ := key b.toBitVec
  refine ⟨h1, UInt8.toBitVec_inj.1 h2, UInt8.toBitVec_inj.1 h3, fun h => h4 (UInt8.toBitVec_inj.2 h), UInt8.toBitVec_inj.1 h5, ?_⟩
  rcases h6 with ⟨h6, h7⟩ | ⟨h6, h7⟩
  · rw [if_pos (show b &&& 128 = 128 from UInt8.toBitVec_inj.1 h6)]; exact UInt8.toBitVec_inj.1 h7
  · rw [if_neg (fun h : b &&& 128 = 128 => h6 (UInt8.toBitVec_inj.2 h))]; exact UInt8.toBitVec_inj.1 h7

theorem readHeader_bit {dbg : Bool} {c c' : UInt8} {y s' : Bytes} {h : SectionHeader}
    (hr : readSectionHeader dbg (c :: y) = (.ok h, s')) (hc : c' &&& 127 = c &&& 127) :
    h.moreSections = decide (c &&& 128 = 128) ∧
    readSectionHeader dbg (c' :: y) = (.ok (h.withMore (decide (c' &&& 128 = 128))), s') := by
  have e : ∀ (c : UInt8) (y : Bytes), readU8 (c :: y) = (.ok c, y) := fun _ _ => rfl
  have f : ∀ m : UInt8, 127 &&& m = m → c' &&& m = c &&& m := fun m hm => by
    rw [← hm, ← UInt8.and_assoc, ← UInt8.and_assoc, hc]
  unfold readSectionHeader at hr ⊢
  rw [IOm.bind_ok (e _ _)] at hr ⊢
  simp only [f SECTION_COMPRESSION_MASK (by decide), f SECTION_FORMAT_BIT (by decide)]
  rcases h1 : readUVarint dbg y with ⟨a | _ | _ | _, y1⟩
  rotate_left
  all_goals try (simp only [IOm.bind_run, h1] at hr; cases hr)
  rw [IOm.bind_ok h1] at hr ⊢
  by_cases hf : c &&& SECTION_FORMAT_BIT = SECTION_FORMAT_BIT
  · simp only [hf, if_true, IOm.bind_run, IOm.pure_run, IOm.lift] at hr ⊢
    rcases h2 : readUVarint dbg y1 with ⟨n | _ | _ | _, y2⟩ <;> simp only [h2] at hr ⊢ <;> try cases hr
    rcases h3 : readUVarint dbg y2 with ⟨k | _ | _ | _, y3⟩ <;> simp only [h3] at hr ⊢ <;> try cases hr
    rcases h4 : addU32 dbg n.toUInt32 k.toUInt32 with o | _ | _ | _ <;> simp only [h4] at hr ⊢ <;> try (cases hr; done)
    simp only [Prod.mk.injEq, Outcome.ok.injEq] at hr
    obtain ⟨rfl, rfl⟩ := hr
    exact ⟨rfl, rfl⟩
  · simp only [hf, if_false, reduceCtorEq, IOm.bind_run, IOm.pure_run] at hr ⊢
    rcases h3 : readUVarint dbg y1 with ⟨k | _ | _ | _, y3⟩ <;> simp only [h3] at hr ⊢ <;> try (cases hr; done)
    simp only [Prod.mk.injEq, Outcome.ok.injEq] at hr
    obtain ⟨rfl, rfl⟩ := hr
    exact ⟨rfl, rfl⟩

theorem readOpsNoComp_more {m : Bool} {dbg : Bool} {h : SectionHeader} {s : Bytes} :
    readOpsNoComp dbg (h.withMore m) s =
      ((readOpsNoComp dbg h s).1 >>= fun x => .ok (x.1, x.2.withMore m), (readOpsNoComp dbg h s).2) := by
  rcases h with ⟨al, fmt, m', n, k, o⟩
  show readOpsNoComp dbg ⟨al, fmt, m, n, k, o⟩ s = _
  cases fmt
  · unfold readOpsNoComp
    simp only [IOm.bind_run]
    rcases readOpsInter dbg n.toNat .zero 0 s with ⟨⟨ops, c⟩ | _ | _ | _, s1⟩ <;> try rfl
    simp only
    split <;> rfl
  · unfold readOpsNoComp
    simp only [IOm.bind_run]
    rcases readOpsSeg dbg n.toNat .zero 0 k s with ⟨⟨ops, c, k'⟩ | _ | _ | _, s1⟩ <;> try rfl
    simp only
    split
    · rfl
    · simp only [IOm.bind_run]
      rcases fillAdds ops s1 with ⟨_ | _ | _ | _, s1⟩ <;> rfl

theorem readOpsThrough_more {m : Bool} {dbg : Bool} {h : SectionHeader} {d : Decompressor} :
    readOpsThrough dbg (h.withMore m) d =
      ((readOpsThrough dbg h d).1 >>= fun x => .ok (x.1, x.2.withMore m), (readOpsThrough dbg h d).2) := by
  unfold readOpsThrough
  rw [readOpsNoComp_more]
  rcases readOpsNoComp dbg h d.data with ⟨_ | (_ | _ | _ | _ | _) | _ | _, x⟩ <;> try rfl
  simp only
  rcases d.stop with _ | _ | _ | _ <;> rfl

theorem readOpsComp_more {m : Bool} {dbg : Bool} {cdc : Codec} {h : SectionHeader} {s : Bytes} :
    readOpsComp dbg cdc (h.withMore m) s =
      ((readOpsComp dbg cdc h s).1 >>= fun x => .ok (x.1, x.2.withMore m), (readOpsComp dbg cdc h s).2) := by
  unfold readOpsComp
  have e : (h.withMore m).compressionAlgo = h.compressionAlgo := rfl
  rw [e]
  split
  · rcases applyNoSecComp dbg none s .empty with ⟨_ | _ | _ | _, x, c⟩ <;> try rfl
    simp only [readOpsFrom, readOpsNoComp_more]
  · split
    · rcases cdc.zstdDecode s with d | _ | _ | _ <;> try rfl
      simp only [readOpsThrough_more]
    · split
      · rcases cdc.brotliDecode s with d | _ | _ | _ <;> try rfl
        simp only [readOpsThrough_more]
        rcases readOpsThrough dbg h d with ⟨_ | _ | _ | _, n⟩ <;> try rfl
        rcases d.close n with _ | _ | _ | _ <;> simp
      · exact readOpsNoComp_more

theorem readSectionComp_bit {dbg : Bool} {cdc : Codec} {c c' : UInt8} {y s' : Bytes} {ops : List Op} {sh : SectionHeader}
    (hr : readSectionComp dbg cdc (c :: y) = (.ok (ops, sh), s')) (hc : c' &&& 127 = c &&& 127) :
    sh.moreSections = decide (c &&& 128 = 128) ∧
    readSectionComp dbg cdc (c' :: y) = (.ok (ops, sh.withMore (decide (c' &&& 128 = 128))), s') := by
  unfold readSectionComp at hr
  rcases h1 : readSectionHeader dbg (c :: y) with ⟨h | _ | _ | _, s1⟩ <;> rw [IOm.bind_run] at hr <;> simp only [h1] at hr <;>
    try cases hr
  obtain ⟨k1, k2⟩ := readHeader_bit h1 hc
  refine ⟨?_, ?_⟩
  · have e : h.withMore h.moreSections = h := rfl
    have k := readOpsComp_more (m := h.moreSections) (dbg := dbg) (cdc := cdc) (h := h) (s := s1)
    rw [e, hr] at k
    have k' : sh = sh.withMore h.moreSections := by simpa using k
    rw [k', ← k1]; rfl
  · rw [readSectionComp, IOm.bind_run, k2]
    simp only [readOpsComp_more, hr]
    rfl

theorem readSectionComp_nil {dbg : Bool} {cdc : Codec} {s' : Bytes} {x : List Op × SectionHeader} :
    readSectionComp dbg cdc [] ≠ (.ok x, s') := by
  rw [readSectionComp, IOm.bind_run, readSectionHeader, IOm.bind_run]
  intro h; cases h

theorem readSectionComp_ended {dbg : Bool} {cdc : Codec} {s s' : Bytes} {ops : List Op} {sh : SectionHeader}
    (hr : readSectionComp dbg cdc s = (.ok (ops, sh), s')) (hm : sh.moreSections = true) :
    ∃ (b : UInt8) (y : Bytes), b.toNat < 128 ∧ s = (b + 128) :: y ∧
      readSectionComp dbg cdc (b :: y) = (.ok (ops, sh.withMore false), s') := by
  rcases s with _ | ⟨c, y⟩
  · exact absurd hr readSectionComp_nil
  · obtain ⟨a1, a2, a3, a4, a5, a6⟩ := u8_and c
    obtain ⟨h1, h2⟩ := readSectionComp_bit (c' := c &&& 127) hr a2
    rw [hm] at h1
    rw [if_pos (of_decide_eq_true h1.symm)] at a6
    refine ⟨_, y, a1, by rw [← a6], ?_⟩
    rwa [decide_eq_false a4] at h2

theorem exec_noCopyO {src : Option Bytes} {ops : List Op} (hn : NoCopyO ops) (out : Bytes) :
    exec src ops out = (exec src ops []).map (out ++ ·) := by
  induction ops generalizing out with
  | nil => simp [exec]
  | cons op ops ih =>
    have hn' : NoCopyO ops := fun a n h => hn a n (List.mem_cons_of_mem _ h)
    have e : ∀ out, produce src out op = produce src [] op := by
      rcases op with _ | ⟨_ | _, a, n⟩ | _
      · intro _; rfl
      · intro _; rfl
      · exact absurd (List.mem_cons_self ..) (hn a n)
      · intro _; rfl
    simp only [exec, e out, List.nil_append]
    rcases produce src [] op with _ | bs
    · rfl
    · simp only [Option.bind_some]
      rw [ih hn' (out ++ bs), ih hn' bs, Option.map_map]
      congr 1
      funext x
      simp

theorem headerEnc_set {V : Bytes → Nat → Prop} {h : Header} {hb : Bytes} (he : HeaderEnc V h hb) (m : Bool) :
    ∃ hb', (∀ y, UpToBit (hb ++ y) (hb' ++ y)) ∧ HeaderEnc V { h with more := m } hb' := by
  by_cases hm : h.more = m
  · subst hm; exact ⟨hb, fun y => .inl rfl, he⟩
  · cases m with
    | true =>
      obtain ⟨b, y, k1, rfl, k2⟩ := headerEnc_more (by simpa using hm) he
      exact ⟨_, fun z => .inr (.inl ⟨[], y ++ z, b, k1, rfl, rfl⟩), k2⟩
    | false =>
      simp only [Bool.not_eq_false] at hm
      obtain ⟨h1, h2, b1, b2, b3, k1, k2, k3, rfl⟩ := he
      have e : ({ h with more := false } : Header).control + 128 = h.control := by simp [Header.control, hm]
      have hc : ({ h with more := false } : Header).control < 128 := by
        simp only [Header.control]
        split <;> simp <;> omega
      refine ⟨UInt8.ofNat ({ h with more := false } : Header).control :: (b1 ++ b2 ++ b3), fun y => .inr (.inr
        ⟨[], b1 ++ b2 ++ b3 ++ y, _, ?_, rfl, ?_⟩), h1, h2, b1, b2, b3, k1, k2, k3, rfl⟩
      · rw [UInt8.toNat_ofNat']; omega
      · rw [List.nil_append, List.cons_append, ← e]
        congr 1
        apply UInt8.toNat_inj.1
        simp

theorem sections_of_patch {V : Bytes → Nat → Prop} {ss : List (Header × List Op)} {p : Bytes} (h : PatchEnc V ss p) :
    ∃ bs : List Bytes, p = bs.flatten ∧ List.Forall₂ (fun s b => SectionEnc V s.1 s.2 b) ss bs := by
  induction h with
  | last h ops bs _ he => exact ⟨[bs], by simp, .cons he .nil⟩
  | more h ops bs ss bss _ he _ ih =>
    obtain ⟨qs, rfl, k⟩ := ih
    exact ⟨bs :: qs, by simp, .cons he k⟩

theorem patch_of_sections {V : Bytes → Nat → Prop} {ss : List (Header × List Op)} {bs : List Bytes} (hne : ss ≠ [])
    (h : List.Forall₂ (fun s b => SectionEnc V s.1 s.2 b) ss bs) :
    ∃ (ts : List (Header × List Op)) (qs : List Bytes), List.Forall₂ UpToBit bs qs ∧ PatchEnc V ts qs.flatten ∧
      List.Forall₂ (fun s t => ∃ m, t = ({ s.1 with more := m }, s.2)) ss ts := by
  induction h with
  | nil => exact absurd rfl hne
  | cons he hrest ih =>
    next s b ss bs =>
    obtain ⟨hb, ob, h1, h2, rfl⟩ := he
    rcases ss with _ | ⟨s', ss⟩
    · cases hrest
      obtain ⟨hb', k1, k2⟩ := headerEnc_set h1 false
      refine ⟨[({ s.1 with more := false }, s.2)], [hb' ++ ob], .cons (k1 _) .nil, ?_, .cons ⟨_, rfl⟩ .nil⟩
      simpa using PatchEnc.last _ _ _ rfl ⟨hb', ob, k2, h2, rfl⟩
    · obtain ⟨ts, qs, i1, i2, i3⟩ := ih (by simp)
      obtain ⟨hb', k1, k2⟩ := headerEnc_set h1 true
      refine ⟨({ s.1 with more := true }, s.2) :: ts, (hb' ++ ob) :: qs, .cons (k1 _) i1, ?_, .cons ⟨_, rfl⟩ i3⟩
      simpa using PatchEnc.more _ _ _ _ _ rfl ⟨hb', ob, k2, h2, rfl⟩ i2

theorem apply_sections (dbg : Bool) (cdc : Codec) (src : Option Bytes) {ss : List (Header × List Op)} {bs : List Bytes}
    (hne : ss ≠ []) (h : List.Forall₂ (fun s b => SectionEnc (VAcc dbg) s.1 s.2 b) ss bs)
    (hc : ∀ s ∈ ss, Consistent s.1 s.2) (hal : ∀ s ∈ ss, s.1.algo ≠ 1 ∧ s.1.algo ≠ 2 ∧ s.1.algo ≠ 3) {out : Bytes}
    (hm : meaning src (ss.flatMap (·.2)) = some out) :
    ∃ qs : List Bytes, List.Forall₂ UpToBit bs qs ∧ applyPatch dbg cdc src qs.flatten .empty = (.ok (), ⟨out, out.length⟩) := by
  obtain ⟨ts, qs, h1, h2, h3⟩ := patch_of_sections hne h
  have hf : ts.flatMap (·.2) = ss.flatMap (·.2) := by
    clear h2 h1 hm hne h hc hal
    induction h3 with
    | nil => rfl
    | cons e _ ih => obtain ⟨m, rfl⟩ := e; simp [ih]
  have hp : ∀ t ∈ ts, ∃ s ∈ ss, ∃ m, t = ({ s.1 with more := m }, s.2) := by
    clear h2 h1 hm hne h hc hal hf
    induction h3 with
    | nil => simp
    | cons e _ ih =>
      intro t ht
      rcases List.mem_cons.1 ht with rfl | ht
      · exact ⟨_, by simp, e⟩
      · obtain ⟨s, hs, k⟩ := ih t ht
        exact ⟨s, List.mem_cons_of_mem _ hs, k⟩
  refine ⟨qs, h1, ?_⟩
  have := C20_meaning_is_ok dbg cdc src ts qs.flatten [] out h2 (fun t ht => ?_) (fun t ht => ?_) (by rw [hf]; exact hm)
  · simpa using this
  · obtain ⟨s, hs, m, rfl⟩ := hp t ht; exact hc s hs
  · obtain ⟨s, hs, m, rfl⟩ := hp t ht; exact hal s hs

/-- **C115** (any compression). If a patch has more than one section, and the bit of the first that announces the next is
cleared, the patch gives the first part of the file: what the first section gives. -/
theorem C115_first (dbg : Bool) (cdc : Codec) (src : Option Bytes) (patch : Bytes) (c : Cursor)
    (h : applyPatch dbg cdc src patch .empty = (.ok (), c)) :
    ∃ ss rest, SectionsAt (VRead dbg) cdc ss patch rest ∧ Terminated ss ∧ meaning src (ss.flatMap (·.2)) = some c.data ∧
      (2 ≤ ss.length → ∃ patch', BitSet patch' patch ∧ applyPatch dbg cdc src patch' .empty =
        (.ok (), ⟨c.data.take (reach ss 1), (c.data.take (reach ss 1)).length⟩)) := by
  rw [applyPatch_eq] at h
  rcases hx : applyLoop (readSectionComp dbg cdc) src (patch.length + 2) (.new patch) 0 .empty with ⟨r, rest, c'⟩
  rw [hx] at h
  simp only [Prod.mk.injEq] at h
  obtain ⟨rfl, rfl⟩ := h
  obtain ⟨ss, s', h1, h2, -⟩ := applyLoop_inv (out := []) (p := 0) hx
  obtain ⟨hm, rfl, he⟩ := h2 rfl
  obtain ⟨hs, g1, g2, g3, -⟩ := sectionsAt_of_readSeq h1
  refine ⟨hs, s', g1, terminated_of_moreBits hm g3, by rw [meaning, flatMap_snd_eq g2]; exact he, fun hl => ?_⟩
  cases hm with
  | last t _ =>
    have := congrArg List.length g2
    simp at this; omega
  | more t ss hmore hms =>
    cases h1 with
    | cons ops sh _ _ s2 _ hr hs' =>
      obtain ⟨b, y, k1, rfl, k2⟩ := readSectionComp_ended hr hmore
      refine ⟨b :: y, ⟨[], y, b, k1, rfl, rfl⟩, ?_⟩
      rw [List.flatMap_cons, exec_append, Option.bind_eq_some_iff] at he
      obtain ⟨o1, e1, e2⟩ := he
      obtain ⟨t, ht⟩ := exec_prefix e2
      have hl1 := exec_length e1
      have hre : reach hs 1 = o1.length := by
        rcases hs with _ | ⟨x, hs⟩
        · simp at hl
        · simp only [List.map_cons, List.cons.injEq] at g2
          simp [reach, g2.1, hl1]
      have htk : c'.data.take (reach hs 1) = o1 := by rw [ht, hre, List.take_left]
      rw [htk]
      have := applyLoop_some (rd := readSectionComp dbg cdc) (src := src) (old := []) (ss := [(ops, sh.withMore false)])
        (.last _ rfl) (out := []) (out' := o1) (f := (b :: y).length + 2) (p := 0) (.cons _ _ _ _ _ _ k2 (.nil _))
        (by simp) (by simpa using e1)
      rw [over_nil, over_nil] at this
      have e : applyLoop (readSectionComp dbg cdc) src ((b :: y).length + 2) (.new (b :: y)) 0 .empty
          = (.ok (), s2, ⟨o1, o1.length⟩) := this
      rw [applyPatch_eq, e]

theorem exec_sections {src : Option Bytes} : ∀ {ss : List (Header × List Op)} {out out' : Bytes},
    exec src (ss.flatMap (·.2)) out = some out' → ∃ ts : List Bytes, out' = out ++ ts.flatten ∧
      List.Forall₂ (fun s t => t.length = totalLen s.2 ∧ (NoCopyO s.2 → meaning src s.2 = some t)) ss ts := by
  intro ss
  induction ss with
  | nil => intro out out' h; simp only [List.flatMap_nil, exec, Option.some.injEq] at h; exact ⟨[], by simp [h], .nil⟩
  | cons s ss ih =>
    intro out out' h
    rw [List.flatMap_cons, exec_append, Option.bind_eq_some_iff] at h
    obtain ⟨o1, h1, h2⟩ := h
    obtain ⟨ts, rfl, k⟩ := ih h2
    obtain ⟨t, rfl⟩ := exec_prefix h1
    have hl := exec_length h1
    refine ⟨t :: ts, by simp, .cons ⟨by simp at hl; omega, fun hn => ?_⟩ k⟩
    rw [exec_noCopyO hn] at h1
    simp only [Option.map_eq_some_iff, List.append_cancel_left_eq] at h1
    obtain ⟨a, h1, rfl⟩ := h1
    exact h1

theorem forall₂_get {α β : Type} {R : α → β → Prop} {as : List α} {bs : List β} (h : List.Forall₂ R as bs) :
    ∀ {i : Nat} {a : α}, as[i]? = some a → ∃ b, bs[i]? = some b ∧ R a b := by
  induction h with
  | nil => intro i a h; simp at h
  | cons e _ ih =>
    intro i a h
    cases i with
    | zero => simp only [List.getElem?_cons_zero, Option.some.injEq] at h; subst h; exact ⟨_, rfl, e⟩
    | succ i => simpa using ih (by simpa using h)

/-- **C115** (any parts, in any order). An uncompressed patch is the concatenation of its sections, and the file of what
they give.  Any sections without copies from the output can be put together, in any order and as often as wanted, setting
or clearing one bit in each: the result is a patch that gives the parts of the file in this order. -/
theorem C115_parts (dbg : Bool) (cdc : Codec) (src : Option Bytes) (ss : List (Header × List Op)) (patch file : Bytes)
    (h : PatchEnc (VAcc dbg) ss patch) (hc : ∀ s ∈ ss, Consistent s.1 s.2)
    (hal : ∀ s ∈ ss, s.1.algo ≠ 1 ∧ s.1.algo ≠ 2 ∧ s.1.algo ≠ 3) (hm : meaning src (ss.flatMap (·.2)) = some file) :
    ∃ bs ts : List Bytes, patch = bs.flatten ∧ file = ts.flatten ∧
      List.Forall₂ (fun s b => SectionEnc (VAcc dbg) s.1 s.2 b) ss bs ∧
      List.Forall₂ (fun s t => t.length = totalLen s.2) ss ts ∧
      ∀ is : List Nat, is ≠ [] → (∀ i ∈ is, ∃ s, ss[i]? = some s ∧ NoCopyO s.2) →
        ∃ qs : List Bytes, List.Forall₂ (fun i q => ∃ b, bs[i]? = some b ∧ UpToBit b q) is qs ∧
          applyPatch dbg cdc src qs.flatten .empty = (.ok (), ⟨is.flatMap fun i => ts[i]?.getD [],
            (is.flatMap fun i => ts[i]?.getD []).length⟩) := by
  obtain ⟨bs, rfl, hb⟩ := sections_of_patch h
  obtain ⟨ts, rfl, ht⟩ := exec_sections (out := []) hm
  refine ⟨bs, ts, rfl, rfl, hb, ht.imp fun _ _ k => k.1, fun is hne hi => ?_⟩
  have main : ∀ is : List Nat, (∀ i ∈ is, ∃ s, ss[i]? = some s ∧ NoCopyO s.2) →
      ∃ (cs : List (Header × List Op)) (cb : List Bytes), List.Forall₂ (fun s b => SectionEnc (VAcc dbg) s.1 s.2 b) cs cb ∧
        (∀ c ∈ cs, c ∈ ss) ∧ NoCopyO (cs.flatMap (·.2)) ∧ cs.length = is.length ∧
        List.Forall₂ (fun i b => bs[i]? = some b) is cb ∧
        meaning src (cs.flatMap (·.2)) = some (is.flatMap fun i => ts[i]?.getD []) := by
    intro is
    induction is with
    | nil => intro _; exact ⟨[], [], .nil, by simp, by intro a n; simp, rfl, .nil, rfl⟩
    | cons i is ih =>
      intro hi
      obtain ⟨cs, cb, h1, h2, h3, h4, h5, h6⟩ := ih fun j hj => hi j (List.mem_cons_of_mem _ hj)
      obtain ⟨s, hs, hn⟩ := hi i (by simp)
      obtain ⟨b, k1, k2⟩ := forall₂_get hb hs
      obtain ⟨t, k3, -, k4⟩ := forall₂_get ht hs
      refine ⟨s :: cs, b :: cb, .cons k2 h1, ?_, ?_, by simp [h4], .cons k1 h5, ?_⟩
      · intro c hc
        rcases List.mem_cons.1 hc with rfl | hc
        · exact List.mem_of_getElem? hs
        · exact h2 c hc
      · intro a n hmem
        simp only [List.flatMap_cons, List.mem_append] at hmem
        exact hmem.elim (hn a n) (h3 a n)
      · rw [List.flatMap_cons, List.flatMap_cons, meaning, exec_append]
        have := k4 hn
        rw [meaning] at this
        rw [this, Option.bind_some, exec_noCopyO h3]
        rw [meaning] at h6
        rw [h6, k3]
        rfl
  obtain ⟨cs, cb, h1, h2, h3, h4, h5, h6⟩ := main is hi
  have hcne : cs ≠ [] := by rintro rfl; exact hne (List.length_eq_zero_iff.1 h4.symm)
  obtain ⟨qs, g1, g2⟩ := apply_sections dbg cdc src hcne h1 (fun s hs => hc s (h2 s hs)) (fun s hs => hal s (h2 s hs)) h6
  refine ⟨qs, ?_, g2⟩
  clear g2 h6 h4 hi hne h1
  induction h5 generalizing qs with
  | nil => cases g1; exact .nil
  | cons e _ ih =>
    cases g1 with
    | cons u g1 => exact .cons ⟨_, e, u⟩ (ih _ g1)

theorem prefix_of_patch {V : Bytes → Nat → Prop} {ss : List (Header × List Op)} {p : Bytes} (h : PatchEnc V ss p) :
    ∀ k, 0 < k → k ≤ ss.length → ∃ (x y x' : Bytes) (ts : List (Header × List Op)), p = x ++ y ∧ (x' = x ∨ BitSet x' x) ∧
      (k < ss.length → y ≠ []) ∧
      PatchEnc V ts x' ∧ List.Forall₂ (fun s t => ∃ m, t = ({ s.1 with more := m }, s.2)) (ss.take k) ts := by
  have ne : ∀ {ss p}, PatchEnc V ss p → p ≠ [] := by
    intro ss p h
    cases h with
    | last hd ops bs _ he => obtain ⟨hb, ob, ⟨_, _, _, _, _, _, _, _, rfl⟩, _, rfl⟩ := he; simp
    | more hd ops bs ss bss _ he _ => obtain ⟨hb, ob, ⟨_, _, _, _, _, _, _, _, rfl⟩, _, rfl⟩ := he; simp
  induction h with
  | last hd ops bs hm he =>
    intro k h0 hk
    obtain rfl : k = 1 := by simp at hk; omega
    exact ⟨bs, [], bs, _, by simp, .inl rfl, by simp, .last _ _ _ hm he, .cons ⟨hd.more, rfl⟩ .nil⟩
  | more hd ops bs ss bss hm he hrest ih =>
    intro k h0 hk
    obtain ⟨k, rfl⟩ : ∃ j, k = j + 1 := ⟨k - 1, by omega⟩
    rcases Nat.eq_zero_or_pos k with rfl | hkp
    · obtain ⟨hb, ob, h1, h2, rfl⟩ := he
      obtain ⟨h1a, h1b, b1, b2, b3, k1, k2, k3, rfl⟩ := h1
      have e : ({ hd with more := false } : Header).control + 128 = hd.control := by simp [Header.control, hm]
      have hc : ({ hd with more := false } : Header).control < 128 := by
        simp only [Header.control]
        split <;> simp <;> omega
      refine ⟨_, bss, UInt8.ofNat ({ hd with more := false } : Header).control :: (b1 ++ b2 ++ b3) ++ ob, _, rfl,
        .inr ⟨[], b1 ++ b2 ++ b3 ++ ob, _, ?_, rfl, ?_⟩, fun _ => ne hrest,
        .last { hd with more := false } ops _ rfl ⟨_, ob, ⟨h1a, h1b, b1, b2, b3, k1, k2, k3, rfl⟩, h2, rfl⟩,
        .cons ⟨false, rfl⟩ (by simp)⟩
      · rw [UInt8.toNat_ofNat']; omega
      · rw [List.nil_append, List.cons_append, ← e]
        congr 1
        apply UInt8.toNat_inj.1
        simp
    · obtain ⟨x, y, x', ts, rfl, i1, i0, i2, i3⟩ := ih k hkp (by simpa using hk)
      refine ⟨bs ++ x, y, bs ++ x', (hd, ops) :: ts, by simp, ?_, fun h => i0 (by simpa using h),
        .more _ _ _ _ _ hm he i2, .cons ⟨hd.more, rfl⟩ i3⟩
      rcases i1 with rfl | ⟨u, v, b, hb, rfl, rfl⟩
      · exact .inl rfl
      · exact .inr ⟨bs ++ u, v, b, hb, by simp, by simp⟩

/-- **C115** (the first parts). An uncompressed patch can be cut off behind any section, clearing one bit before the cut:
what is left is a patch that gives the first part of the file, up to where the section ends. -/
theorem C115_prefix (dbg : Bool) (cdc : Codec) (src : Option Bytes) (ss : List (Header × List Op)) (patch file : Bytes)
    (h : PatchEnc (VAcc dbg) ss patch) (hc : ∀ s ∈ ss, Consistent s.1 s.2)
    (hal : ∀ s ∈ ss, s.1.algo ≠ 1 ∧ s.1.algo ≠ 2 ∧ s.1.algo ≠ 3) (hm : meaning src (ss.flatMap (·.2)) = some file)
    (k : Nat) (h0 : 0 < k) (hk : k ≤ ss.length) :
    ∃ x y x' : Bytes, patch = x ++ y ∧ (x' = x ∨ BitSet x' x) ∧ (k < ss.length → y ≠ []) ∧
      applyPatch dbg cdc src x' .empty = (.ok (), ⟨file.take (reach ss k), (file.take (reach ss k)).length⟩) := by
  obtain ⟨x, y, x', ts, rfl, h1, h2, h3, h4⟩ := prefix_of_patch h k h0 hk
  refine ⟨x, y, x', rfl, h1, h2, ?_⟩
  have hf : ts.flatMap (·.2) = (ss.take k).flatMap (·.2) := by
    clear h3
    generalize ss.take k = l at h4 ⊢
    induction h4 with
    | nil => rfl
    | cons e _ ih => obtain ⟨m, rfl⟩ := e; simp [ih]
  have hp : ∀ t ∈ ts, ∃ s ∈ ss.take k, ∃ m, t = ({ s.1 with more := m }, s.2) := by
    clear h3 hf
    generalize ss.take k = l at h4 ⊢
    induction h4 with
    | nil => simp
    | cons e _ ih =>
      intro t ht
      rcases List.mem_cons.1 ht with rfl | ht
      · exact ⟨_, by simp, e⟩
      · obtain ⟨s, hs, k⟩ := ih t ht
        exact ⟨s, List.mem_cons_of_mem _ hs, k⟩
  rw [← List.take_append_drop k ss, List.flatMap_append, meaning, exec_append, Option.bind_eq_some_iff] at hm
  obtain ⟨o1, e1, e2⟩ := hm
  obtain ⟨t, rfl⟩ := exec_prefix e2
  have hr : reach ss k = o1.length := by
    have := exec_length e1
    rw [reach, this]
    simp only [totalLen, List.length_nil, Nat.zero_add]
    generalize ss.take k = l
    induction l with
    | nil => rfl
    | cons s l ih => simp [ih]
  rw [hr, List.take_left]
  have := C20_meaning_is_ok dbg cdc src ts x' [] o1 h3 (fun t ht => ?_) (fun t ht => ?_) (by rw [hf]; exact e1)
  · simpa using this
  · obtain ⟨s, hs, m, rfl⟩ := hp t ht; exact hc s (List.mem_of_mem_take hs)
  · obtain ⟨s, hs, m, rfl⟩ := hp t ht; exact hal s (List.mem_of_mem_take hs)

/-- **C115** (what the encoder writes). Without secondary compression and target matching, and when no 372 bytes in a row
are equal, every patch is made of independent parts: any of them, in any order, give the parts of the file. -/
theorem C115_encoded (dbg dbgR : Bool) (cdc cdcR : Codec) (cfg : EncoderConfig) (dict : Option Bytes) (trgt patch : Bytes)
    (hmt : cfg.matchTrgt = none) (hn : cfg.secComp = none) (hs : (dict.getD []).length < 2 ^ 63) (ht : trgt.length < 2 ^ 63)
    (hr : ∀ i b, (trgt.drop i).take 372 ≠ List.replicate 372 b)
    (he : encode dbg cdc cfg dict trgt ([] : Bytes) = (.ok (), patch)) :
    ∃ bs ts : List Bytes, patch = bs.flatten ∧ trgt = ts.flatten ∧ bs.length = ts.length ∧
      (∀ t ∈ ts, t.length ≤ 16777215) ∧
      ∀ is : List Nat, is ≠ [] → (∀ i ∈ is, i < ts.length) →
        ∃ qs : List Bytes, List.Forall₂ (fun i q => ∃ b, bs[i]? = some b ∧ UpToBit b q) is qs ∧
          applyPatch dbgR cdcR dict qs.flatten .empty = (.ok (), ⟨is.flatMap fun i => ts[i]?.getD [],
            (is.flatMap fun i => ts[i]?.getD []).length⟩) := by
  obtain ⟨ss, h1, h2, h3, h4, h5⟩ := encode_grammar (dbgR := dbgR) hmt hn hs trgt patch ht he
  have hno := h5 hr
  obtain ⟨bs, ts, rfl, rfl, k1, k2, k3⟩ := C115_parts dbgR cdcR dict ss patch trgt h1 h2
    (fun s hs => by rw [h3 s hs]; decide) h4
  refine ⟨bs, ts, rfl, rfl, by rw [← k1.length_eq, k2.length_eq], fun t ht' => ?_, fun is hne hi => k3 is hne fun i hi' => ?_⟩
  · clear k3 hno h5 h4 he hr ht h3 k1 h1
    induction k2 with
    | nil => simp at ht'
    | cons e _ ih =>
      rcases List.mem_cons.1 ht' with rfl | ht'
      · rw [e]; exact (h2 _ (by simp)).2.2.2.2
      · exact ih (fun s hs => h2 s (List.mem_cons_of_mem _ hs)) ht'
  · have hlt : i < ss.length := by rw [k2.length_eq]; exact hi i hi'
    refine ⟨ss[i], List.getElem?_eq_getElem hlt, fun a n hmem => hno a n ?_⟩
    exact List.mem_flatMap.2 ⟨ss[i], List.getElem_mem hlt, hmem⟩

/-- A patch of two sections, `[5]` and `[6, 6]`: cut off behind the first; and the second, the first, the second. -/
example (cdc : Codec) : applyPatch true cdc none [128, 1, 1, 0x81, 5, 0, 1, 2, 0xC2, 6] .empty = (.ok (), ⟨[5, 6, 6], 3⟩) ∧
    applyPatch true cdc none [0, 1, 1, 0x81, 5] .empty = (.ok (), ⟨[5], 1⟩) ∧
    applyPatch true cdc none [128, 1, 2, 0xC2, 6, 128, 1, 1, 0x81, 5, 0, 1, 2, 0xC2, 6] .empty =
      (.ok (), ⟨[6, 6, 5, 6, 6], 5⟩) := ⟨rfl, rfl, rfl⟩

/-- The hypotheses of `C115_prefix` and `C115_parts` are met by this patch, with either section chosen. -/
example : ∃ ss, PatchEnc (VAcc true) ss [128, 1, 1, 0x81, 5, 0, 1, 2, 0xC2, 6] ∧ (∀ s ∈ ss, Consistent s.1 s.2) ∧
    (∀ s ∈ ss, s.1.algo ≠ 1 ∧ s.1.algo ≠ 2 ∧ s.1.algo ≠ 3) ∧ meaning none (ss.flatMap (·.2)) = some [5, 6, 6] ∧ ss.length = 2 := by
  obtain ⟨ss, h1, h2, h3, h4, h5⟩ := two_sections
  exact ⟨ss, h1, h2, fun s hs => by rw [h3 s hs]; decide, h5, h4⟩

/-- Where a section copies from the output, it cannot stand alone. -/
theorem C115_needs_output (cdc : Codec) :
    applyPatch true cdc none [128, 1, 1, 0x81, 5, 0, 1, 1, 0x41, 0] .empty = (.ok (), ⟨[5, 5], 2⟩) ∧
    (applyPatch true cdc none [0, 1, 1, 0x41, 0] .empty).1 ≠ .ok () := by
  refine ⟨rfl, ?_⟩
  rw [show (applyPatch true cdc none [0, 1, 1, 0x41, 0] .empty).1 = .err .eof from rfl]
  simp

end Smdiff
