import Verif.Lemmas.Loop
/-!
# C20–C26: applying a patch

`apply_patch` (`applyPatch`) against the specification: the grammar of patches with compressed
sections (`SectionsAt`, `PatchEnc`) and the meaning of operation lists (`meaning`, `exec`).
-/
namespace Smdiff
open Spec

/-- A patch with an Add, a Run, a dictionary copy, an output copy and a second section. -/
def demoPatch : Bytes :=
  [128, 3, 6, 0x81, 5, 0xC2, 6, 0x03, 2, 0, 2, 4, 0x42, 4, 0x82, 7, 8]

theorem demo_apply (dbg : Bool) (cdc : Codec) :
    applyPatch dbg cdc (some [10, 11, 12, 13]) demoPatch .empty
      = (.ok (), ⟨[5, 6, 6, 11, 12, 13, 6, 11, 7, 8], 10⟩) := by
  cases dbg <;> rfl

/-- Compress: the length, the bytes and an end mark. -/
def storedEncode (bs : Bytes) : Outcome Bytes :=
  if bs.length < 256 then .ok (UInt8.ofNat bs.length :: bs ++ [0xFF]) else .err .library

/-- Decompress lazily: the end mark is taken together with the last byte. -/
def storedDecode : Bytes → Outcome Decompressor
  | [] => .err .library
  | n :: s => .ok {
      data := if n.toNat < s.length then s.take n.toNat else s.take (n.toNat - 1)
      stop := if n.toNat < s.length then .ok () else .err .library
      left := fun k => if k = 0 ∨ k < n.toNat then s.drop k else s.drop (n.toNat + 1)
      close := fun k => if 0 < k ∧ n.toNat ≤ k then .ok () else .err .library }

/-- A codec that only stores. -/
def storedCodec : Codec := ⟨storedEncode, storedEncode, storedDecode, storedDecode⟩

theorem stored_framed : Framed storedCodec := by
  have key : ∀ (s : Bytes) (d : Decompressor) (n : Nat) (q : Bytes), storedDecode s = .ok d → n ≤ d.data.length →
      (d.left n).length ≤ s.length ∧ ∃ d', storedDecode (s ++ q) = .ok d' ∧ d.data <+: d'.data ∧
        d'.left n = d.left n ++ q ∧ (d.close n = .ok () → d'.close n = .ok ()) := by
    intro s d n q h hn
    cases s with
    | nil => simp [storedDecode] at h
    | cons N s =>
      simp only [storedDecode, Outcome.ok.injEq] at h
      subst h
      simp only [List.cons_append, storedDecode] at hn ⊢
      refine ⟨by split <;> (simp only [List.length_drop, List.length_cons]; omega), _, rfl, ?_, ?_, id⟩
      · simp only [List.length_append]
        by_cases c : N.toNat < s.length
        · rw [if_pos c, if_pos (by omega), List.take_append_of_le_length (by omega)]
          exact List.prefix_refl _
        · rw [if_neg c]
          split
          · rw [List.take_append]
            refine List.IsPrefix.trans ?_ (List.prefix_append _ _)
            exact List.take_prefix_take_left (by omega)
          · rw [List.take_append]
            exact List.prefix_append _ _
      · simp only
        have hs : n ≤ s.length := by split at hn <;> (simp only [List.length_take] at hn; omega)
        split
        · rw [List.drop_append_of_le_length hs]
        · next c =>
          have : N.toNat < s.length := by
            by_contra hc
            rw [if_neg hc] at hn
            simp only [List.length_take] at hn
            omega
          rw [List.drop_append_of_le_length (by omega)]
  exact ⟨fun s d n q h hn => ⟨(key s d n q h hn).1, let ⟨d', a, b, c, _⟩ := (key s d n q h hn).2; ⟨d', a, b, c⟩⟩,
    fun s d n q h hn hc => ⟨(key s d n q h hn).1,
      let ⟨d', a, b, c, e⟩ := (key s d n q h hn).2; ⟨d', a, b, c, e hc⟩⟩⟩

theorem stored_faithful : Faithful storedCodec := by
  have key : ∀ (bs f rest : Bytes), bs ≠ [] → storedEncode bs = .ok f →
      ∃ d, storedDecode (f ++ rest) = .ok d ∧ d.data = bs ∧ d.left bs.length = rest ∧
        d.close bs.length = .ok () := by
    intro bs f rest hne h
    unfold storedEncode at h
    split at h
    · next hn =>
      simp only [Outcome.ok.injEq] at h
      subst h
      have h1 : (UInt8.ofNat bs.length).toNat = bs.length := by
        rw [UInt8.toNat_ofNat']; omega
      have h2 : 0 < bs.length := List.length_pos_iff.2 hne
      simp only [storedDecode, List.cons_append, h1, List.append_assoc]
      refine ⟨_, rfl, ?_, ?_, ?_⟩
      · simp
      · simp only
        rw [if_neg (by omega)]
        simp [List.drop_append]
      · simp [h2]
    · cases h
  exact ⟨fun bs f rest hne h => let ⟨d, a, b, c, _⟩ := key bs f rest hne h; ⟨d, a, b, c⟩, key⟩

theorem stored_returns : Returns storedCodec := by
  have key : ∀ s, storedDecode s ≠ .diverge := by intro s; cases s <;> simp [storedDecode]
  refine ⟨key, key, fun s d h => ?_⟩
  have h : storedDecode s = .ok d := by rcases h with h | h <;> exact h
  cases s with
  | nil => simp [storedDecode] at h
  | cons n s =>
    simp only [storedDecode, Outcome.ok.injEq] at h
    subst h
    constructor
    · simp only; split <;> simp
    · intro k; simp only; split <;> simp

theorem applyPatch_eq (dbg : Bool) (cdc : Codec) (src : Option Bytes) (patch : Bytes) (sink : Cursor) :
    applyPatch dbg cdc src patch sink =
      ((applyLoop (readSectionComp dbg cdc) src (patch.length + 2) (.new patch) 0 sink).1,
       (applyLoop (readSectionComp dbg cdc) src (patch.length + 2) (.new patch) 0 sink).2.2) := rfl

/-! ## C20 -/

/-- **C20** (Ok means the meaning).  If `apply_patch` succeeds on an empty sink, for any patch bytes,
dictionary and compression libraries, then the patch starts with a terminated sequence of sections and
the sink holds exactly the file their operations denote. -/
theorem C20_ok_is_meaning (dbg : Bool) (cdc : Codec) (src : Option Bytes) (patch : Bytes) (c : Cursor)
    (h : applyPatch dbg cdc src patch .empty = (.ok (), c)) :
    ∃ ss rest, SectionsAt (VRead dbg) cdc ss patch rest ∧ Terminated ss ∧
      meaning src (ss.flatMap (·.2)) = some c.data := by
  rw [applyPatch_eq] at h
  rcases hx : applyLoop (readSectionComp dbg cdc) src (patch.length + 2) (.new patch) 0 .empty
    with ⟨r, rest, c'⟩
  rw [hx] at h
  simp only [Prod.mk.injEq] at h
  obtain ⟨rfl, rfl⟩ := h
  obtain ⟨ss, s', h1, h2, -⟩ := applyLoop_inv (out := []) (p := 0) hx
  obtain ⟨hm, rfl, he⟩ := h2 rfl
  obtain ⟨hs, g1, g2, g3, -⟩ := sectionsAt_of_readSeq h1
  exact ⟨hs, s', g1, terminated_of_moreBits hm g3, by rw [meaning, flatMap_snd_eq g2]; exact he⟩

/-- **C20** (a defined meaning is delivered).  Every grammatical, consistent patch of uncompressed
sections whose operations denote a file is applied successfully: the sink holds that file, and the
position is at its end. -/
theorem C20_meaning_is_ok (dbg : Bool) (cdc : Codec) (src : Option Bytes)
    (ss : List (Header × List Op)) (bs rest out : Bytes)
    (h : PatchEnc (VAcc dbg) ss bs) (hc : ∀ s ∈ ss, Consistent s.1 s.2)
    (hal : ∀ s ∈ ss, s.1.algo ≠ 1 ∧ s.1.algo ≠ 2 ∧ s.1.algo ≠ 3)
    (he : meaning src (ss.flatMap (·.2)) = some out) :
    applyPatch dbg cdc src (bs ++ rest) .empty = (.ok (), ⟨out, out.length⟩) := by
  obtain ⟨h1, h2⟩ := readSeqComp_of_patch (cdc := cdc) h hc hal rest
  have := applyLoop_some (rd := readSectionComp dbg cdc) (src := src) (old := []) h2 (out := [])
    (out' := out) (f := (bs ++ rest).length + 2) (p := 0) h1
    (by have := PatchEnc.length h; simp only [List.length_map, List.length_append]; omega)
    (by rw [List.flatMap_map]; exact he)
  rw [over_nil] at this
  have e : applyLoop (readSectionComp dbg cdc) src ((bs ++ rest).length + 2) (.new (bs ++ rest)) 0 .empty
      = (.ok (), rest, ⟨out, out.length⟩) := by simpa [over, SectionIterator.new, Cursor.empty] using this
  rw [applyPatch_eq, e]

/-- **C20**, both directions at once for the entry point without secondary compression,
`apply_no_sec_comp`: what it reads and what it leaves unread. -/
theorem C20_no_sec_comp (dbg : Bool) (src : Option Bytes) (patch rest : Bytes) (c : Cursor)
    (h : applyNoSecComp dbg src patch .empty = (.ok (), rest, c)) :
    ∃ ss bs, patch = bs ++ rest ∧ PatchEnc (VRead dbg) ss bs ∧
      meaning src (ss.flatMap (·.2)) = some c.data :=
  applyNoSecComp_inv h

theorem C20_no_sec_comp_ok (dbg : Bool) (src : Option Bytes) (ss : List (Header × List Op))
    (bs rest out : Bytes) (h : PatchEnc (VAcc dbg) ss bs) (hc : ∀ s ∈ ss, Consistent s.1 s.2)
    (he : meaning src (ss.flatMap (·.2)) = some out) :
    applyNoSecComp dbg src (bs ++ rest) .empty = (.ok (), rest, ⟨out, out.length⟩) :=
  applyNoSecComp_some h hc he rest

theorem readSection_not_diverge (dbg : Bool) (s : Bytes) : (readSection dbg s).1 ≠ .diverge := by
  cases dbg
  · exact (tame_readSection s).2
  · rcases agrees_readSection s with h | h
    · rw [h]; simp
    · rw [h]; exact (tame_readSection s).2

theorem tame_readOpsNoComp_div (dbg : Bool) (h : SectionHeader) (s : Bytes) :
    (readOpsNoComp dbg h s).1 ≠ .diverge := by
  cases dbg
  · exact (tame_readOpsNoComp h s).2
  · rcases agrees_readOpsNoComp h s with h' | h'
    · rw [h']; simp
    · rw [h']; exact (tame_readOpsNoComp h s).2

theorem applyNoSecComp_not_diverge (dbg : Bool) (src : Option Bytes) (patch : Bytes) (sink : Cursor) :
    (applyNoSecComp dbg src patch sink).1 ≠ .diverge :=
  applyLoop_ends (consumes_readSection dbg) (readSection_not_diverge dbg) src _ _ _ _ (by omega)
    (fun _ => by simp [SectionIterator.new])

theorem readOpsThrough_div (dbg : Bool) (h : SectionHeader) {d : Decompressor} (hs : d.stop ≠ .diverge) :
    (readOpsThrough dbg h d).1 ≠ .diverge := by
  have := tame_readOpsNoComp_div dbg h d.data
  unfold readOpsThrough
  split
  · generalize d.stop = z at hs
    cases z <;> simp_all
  · next heq => rw [heq] at this; exact this

theorem consumes_readSectionComp (dbg : Bool) {cdc : Codec} (hf : Framed cdc) :
    Consumes (readSectionComp dbg cdc) := by
  rintro s ⟨ops, sh⟩ rest h
  obtain ⟨hd, ⟨hb', s', rfl, ⟨_, _, b1, b2, b3, _, _, _, rfl⟩, hbody, _, _⟩, _, _⟩ := readSectionComp_inv h
  have : rest.length ≤ s'.length := by
    unfold BodyAt at hbody
    split at hbody
    · obtain ⟨_, pay, _, _, rfl, _⟩ := hbody; simp
    · split at hbody
      · obtain ⟨d, body, extra, e, hd, hl, _⟩ := hbody
        rw [← hl]
        exact (hf.1 _ _ body.length [] e (by rw [hd]; simp)).1
      · split at hbody
        · obtain ⟨d, body, extra, e, hd, hl, hc, _⟩ := hbody
          rw [← hl]
          exact (hf.2 _ _ body.length [] e (by rw [hd]; simp) hc).1
        · obtain ⟨body, rfl, _⟩ := hbody; simp
  simp
  omega

theorem readSectionComp_not_diverge (dbg : Bool) {cdc : Codec} (hr : Returns cdc) (s : Bytes) :
    (readSectionComp dbg cdc s).1 ≠ .diverge := by
  unfold readSectionComp
  rw [IOm.bind_run]
  have hh : (readSectionHeader dbg s).1 ≠ .diverge := by
    cases dbg
    · exact (tame_readSectionHeader s).2
    · rcases agrees_readSectionHeader s with h | h
      · rw [h]; simp
      · rw [h]; exact (tame_readSectionHeader s).2
  rcases hx : readSectionHeader dbg s with ⟨r, mid⟩
  rw [hx] at hh
  rcases r with sh | _ | _ | _ <;> simp only
  · unfold readOpsComp
    split
    · have := applyNoSecComp_not_diverge dbg none mid .empty
      rcases hy : applyNoSecComp dbg none mid .empty with ⟨r, rest, cr⟩
      rw [hy] at this
      rcases r with _ | _ | _ | _ <;> simp only
      · exact tame_readOpsNoComp_div _ _ _
      · simp
      · simp
      · exact absurd rfl this
    · split
      · have := hr.1 mid
        rcases hy : cdc.zstdDecode mid with d | _ | _ | _ <;> simp only
        · exact readOpsThrough_div _ _ (hr.2.2 mid d (.inl hy)).1
        · simp
        · simp
        · exact absurd hy this
      · split
        · have := hr.2.1 mid
          rcases hy : cdc.brotliDecode mid with d | _ | _ | _ <;> simp only
          · obtain ⟨h1, h2⟩ := hr.2.2 mid d (.inr hy)
            have h3 := readOpsThrough_div dbg sh h1
            have h4 := h2 (readOpsThrough dbg sh d).2
            generalize readOpsThrough dbg sh d = w at h3 h4
            rcases w with ⟨r, n⟩
            simp only at h3 h4 ⊢
            generalize d.close n = z at h4
            cases r <;> cases z <;> simp_all
          · simp
          · simp
          · exact absurd hy this
        · exact tame_readOpsNoComp_div _ _ _
  · simp
  · simp
  · exact absurd rfl hh

/-- **C20** (termination).  Applying any bytes to any sink terminates, if no call of the libraries
runs forever and they decompress from left to right. -/
theorem C20_terminates (dbg : Bool) (cdc : Codec) (src : Option Bytes) (patch : Bytes) (sink : Cursor)
    (hr : Returns cdc) (hf : Framed cdc) : (applyPatch dbg cdc src patch sink).1 ≠ .diverge := by
  rw [applyPatch_eq]
  exact applyLoop_ends (consumes_readSectionComp dbg hf) (readSectionComp_not_diverge dbg hr) src _ _ _ _ (by omega)
    (fun _ => by simp [SectionIterator.new])

/-- The hypotheses of `C20_meaning_is_ok` on a two-section patch. -/
theorem two_sections : ∃ ss, PatchEnc (VAcc true) ss [128, 1, 1, 0x81, 5, 0, 1, 2, 0xC2, 6] ∧
    (∀ s ∈ ss, Consistent s.1 s.2) ∧ (∀ s ∈ ss, s.1.algo = 0) ∧ ss.length = 2 ∧
    meaning none (ss.flatMap (·.2)) = some [5, 6, 6] := by
  have l : ∀ n : UInt8, n.toNat < 128 → VAcc true [n] n.toNat := fun n h =>
    ⟨⟨n.toNat, .last n h, by simp, by omega⟩, fun _ => by omega⟩
  refine ⟨[({ more := true, nOps := 1, size := 1 }, [.add [5]]), ({ nOps := 1, size := 2 }, [.run 6 2])],
    ?_, ?_, ?_, rfl, ?_⟩
  · refine .more _ _ [128, 1, 1, 0x81, 5] _ [0, 1, 2, 0xC2, 6] rfl
      ⟨[128, 1, 1], [0x81, 5], ⟨by decide, by decide, [1], [], [1], l 1 (by decide), ⟨rfl, rfl⟩, l 1 (by decide), rfl⟩,
        ⟨[0x81, 5], ?_, rfl⟩, rfl⟩
      (.last _ _ _ rfl ⟨[0, 1, 2], [0xC2, 6], ⟨by decide, by decide, [1], [], [2], l 1 (by decide), ⟨rfl, rfl⟩,
        l 2 (by decide), rfl⟩, ⟨[0xC2, 6], ?_, rfl⟩, rfl⟩)
    · exact .cons _ _ _ _ _ _ [0x81, 5] [] (.add 0 0 [0x81] [5] (.short 1 (by omega) (by omega))) (.nil _ _)
    · exact .cons _ _ _ _ _ _ [0xC2, 6] [] (.run 0 0 6 2 (by decide) (by decide)) (.nil _ _)
  · intro s hs
    simp at hs
    rcases hs with rfl | rfl <;> simp [Consistent, totalLen, opLen, addBytes, opAdd]
  · intro s hs
    simp at hs
    rcases hs with rfl | rfl <;> simp
  · rfl

example : ∃ ss, PatchEnc (VAcc true) ss [128, 1, 1, 0x81, 5, 0, 1, 2, 0xC2, 6] ∧
    (∀ s ∈ ss, Consistent s.1 s.2) ∧ (∀ s ∈ ss, s.1.algo ≠ 1 ∧ s.1.algo ≠ 2 ∧ s.1.algo ≠ 3) ∧
    meaning none (ss.flatMap (·.2)) = some [5, 6, 6] := by
  obtain ⟨ss, h1, h2, h3, -, h4⟩ := two_sections
  exact ⟨ss, h1, h2, fun s hs => by rw [h3 s hs]; decide, h4⟩

/-! ## C21 -/

/-- **C21** (out-of-range copies).  If, in a grammatical, consistent patch of uncompressed sections, an
operation is not defined on what the operations before it produced (a copy that leaves the
dictionary or the output so far), `apply_patch` with a dictionary returns the end-of-file error and
the sink holds exactly the output of the operations before it. -/
theorem C21_out_of_range_is_error (dbg : Bool) (cdc : Codec) (d : Bytes)
    (ss : List (Header × List Op)) (bs rest out : Bytes) (pre post : List Op) (op : Op)
    (h : PatchEnc (VAcc dbg) ss bs) (hc : ∀ s ∈ ss, Consistent s.1 s.2)
    (hal : ∀ s ∈ ss, s.1.algo ≠ 1 ∧ s.1.algo ≠ 2 ∧ s.1.algo ≠ 3)
    (hops : ss.flatMap (·.2) = pre ++ op :: post)
    (hpre : meaning (some d) pre = some out) (hop : produce (some d) out op = none) :
    ∃ p, applyPatch dbg cdc (some d) (bs ++ rest) .empty = (.err .eof, ⟨out, p⟩) := by
  obtain ⟨h1, h2⟩ := readSeqComp_of_patch (cdc := cdc) h hc hal rest
  obtain ⟨r', p', e⟩ := applyLoop_none (rd := readSectionComp dbg cdc) (src := some d) (out := [])
    (out' := out) (op := op) (f := (bs ++ rest).length + 2) (p := 0) h2 h1
    (by have := PatchEnc.length h; simp only [List.length_map, List.length_append]; omega)
    (by rw [List.flatMap_map]; exact ⟨pre, post, hops, hpre, hop⟩)
  refine ⟨p', ?_⟩
  have e' : applyLoop (readSectionComp dbg cdc) (some d) ((bs ++ rest).length + 2) (.new (bs ++ rest)) 0
      .empty = (.err .eof, r', ⟨out, p'⟩) := by
    simpa [SectionIterator.new, Cursor.empty, failUnit] using e
  rw [applyPatch_eq, e']

/-- **C21** (which operations these are): copies of a positive length that do not fit, and only
those. -/
theorem C21_undefined_iff (d out : Bytes) (op : Op) :
    produce (some d) out op = none ↔
      (∃ a n, op = .copy .dict a n ∧ n ≠ 0 ∧ d.length < a.toNat + n.toNat) ∨
      (∃ a n, op = .copy .output a n ∧ n ≠ 0 ∧ out.length < a.toNat + n.toNat) := by
  have key : ∀ (x : Bytes) (a n : Nat), range x a n = none ↔ n ≠ 0 ∧ x.length < a + n := by
    intro x a n
    unfold range
    split
    · next h => simp; omega
    · next h => simp; omega
  have hz : ∀ n : UInt16, n ≠ 0 ↔ n.toNat ≠ 0 := by
    intro n
    rw [ne_eq, ne_eq, ← UInt16.toNat_inj]; rfl
  rcases op with _ | ⟨_ | _, a, n⟩ | _
  · simp [produce]
  · simp only [produce, Option.bind_some, key, hz]
    constructor
    · intro h; exact .inl ⟨a, n, rfl, h.1, h.2⟩
    · rintro (⟨_, _, e, h⟩ | ⟨_, _, e, h⟩) <;> cases e
      exact h
  · simp only [produce, key, hz]
    constructor
    · intro h; exact .inr ⟨a, n, rfl, h.1, h.2⟩
    · rintro (⟨_, _, e, h⟩ | ⟨_, _, e, h⟩) <;> cases e
      exact h
  · simp [produce]

/-- **C21** for arbitrary patch bytes: no success with an undefined operation. -/
theorem C21_never_ok (dbg : Bool) (cdc : Codec) (src : Option Bytes) (patch : Bytes) (c : Cursor)
    (h : applyPatch dbg cdc src patch .empty = (.ok (), c)) :
    ∃ ss rest, SectionsAt (VRead dbg) cdc ss patch rest ∧
      ∀ pre op post, ss.flatMap (·.2) = pre ++ op :: post →
        ∃ out, meaning src pre = some out ∧ produce src out op ≠ none := by
  obtain ⟨ss, rest, h1, -, h3⟩ := C20_ok_is_meaning dbg cdc src patch c h
  refine ⟨ss, rest, h1, fun pre op post e => ?_⟩
  rw [meaning, e, exec_append, Option.bind_eq_some_iff] at h3
  obtain ⟨out, g1, g2⟩ := h3
  refine ⟨out, g1, fun hn => ?_⟩
  simp [exec, hn] at g2

/-- An overlapping self-copy and a copy beyond the dictionary. -/
example : (applyPatch true storedCodec (some [1, 2]) [0, 2, 5, 0x82, 8, 9, 0x43, 0] .empty)
      = (.err .eof, ⟨[8, 9], 2⟩) ∧
    (applyPatch true storedCodec (some [1, 2]) [0, 2, 5, 0x82, 8, 9, 0x03, 0] .empty)
      = (.err .eof, ⟨[8, 9], 2⟩) := by decide

/-! ## C22 -/

/-- **C22.** However `apply_patch` on an empty sink ends, the sink holds the output of the first
operations of the sections it read. -/
theorem C22_prefix_on_failure (dbg : Bool) (cdc : Codec) (src : Option Bytes) (patch : Bytes)
    (r : Outcome Unit) (c : Cursor) (h : applyPatch dbg cdc src patch .empty = (r, c)) :
    ∃ ss rest pre, SectionsAt (VRead dbg) cdc ss patch rest ∧ pre <+: ss.flatMap (·.2) ∧
      meaning src pre = some c.data := by
  rw [applyPatch_eq] at h
  rcases hx : applyLoop (readSectionComp dbg cdc) src (patch.length + 2) (.new patch) 0 .empty
    with ⟨r', rest, c'⟩
  rw [hx] at h
  simp only [Prod.mk.injEq] at h
  obtain ⟨rfl, rfl⟩ := h
  obtain ⟨ss, s', h1, -, pre, h3, h4⟩ := applyLoop_inv (out := []) (p := 0) hx
  obtain ⟨hs, g1, g2, g3, -⟩ := sectionsAt_of_readSeq h1
  exact ⟨hs, s', pre, g1, by rw [flatMap_snd_eq g2]; exact h3, h4⟩

/-- **C22**, corollary: if the whole patch denotes a file, what a failed attempt left in the sink is a
prefix of it. -/
theorem C22_prefix_of_result (dict : Option Bytes) (pre ops : List Op) (a b : Bytes)
    (hp : pre <+: ops) (ha : meaning dict pre = some a) (hb : meaning dict ops = some b) : a <+: b := by
  obtain ⟨t, rfl⟩ := hp
  rw [meaning, exec_append] at hb
  rw [meaning] at ha
  rw [ha] at hb
  obtain ⟨t, rfl⟩ := exec_prefix hb
  exact ⟨t, rfl⟩

/-- A truncated patch: the first section was delivered. -/
example : applyPatch true storedCodec none [128, 1, 1, 0x81, 5, 0, 1, 2, 0xC2] .empty
    = (.err .eof, ⟨[5], 1⟩) := by decide

/-! ## C23 -/

/-- **C23** (true part).  If the patch succeeds on an empty sink then on any sink, at any position, it
succeeds too and replaces exactly the first bytes of the old contents by the result. -/
theorem C23_reused_sink (dbg : Bool) (cdc : Codec) (src : Option Bytes) (patch : Bytes)
    (c₁ c₀ : Cursor) (h : applyPatch dbg cdc src patch .empty = (.ok (), c₁)) :
    applyPatch dbg cdc src patch c₀
      = (.ok (), ⟨c₁.data ++ c₀.data.drop c₁.data.length, c₁.data.length⟩) := by
  rw [applyPatch_eq] at h
  rcases hx : applyLoop (readSectionComp dbg cdc) src (patch.length + 2) (.new patch) 0 .empty
    with ⟨r', rest, c'⟩
  rw [hx] at h
  simp only [Prod.mk.injEq] at h
  obtain ⟨rfl, rfl⟩ := h
  obtain ⟨ss, s', h1, h2, -⟩ := applyLoop_inv (out := []) (p := 0) hx
  obtain ⟨hm, rfl, he⟩ := h2 rfl
  have hlen : ss.length + 1 ≤ patch.length + 2 + ss.length := by omega
  have key := applyLoop_some (old := c₀.data) hm (p := c₀.pos) h1 hlen he
  -- the run on the empty sink used at most the given fuel, so does this one
  have aux : ∀ (f : Nat) (it : SectionIterator) (out p : _) (s'' : Bytes) (c' : Cursor),
      applyLoop (readSectionComp dbg cdc) src f it (List.length out) ⟨out, p⟩ = (.ok (), s'', c') →
      ∀ q, ∃ cc, applyLoop (readSectionComp dbg cdc) src f it (List.length out) ⟨over out c₀.data, q⟩
        = (.ok (), s'', cc) := by
    intro f
    induction f with
    | zero => intro it out p s'' c' h; simp [applyLoop] at h
    | succ f ih =>
      intro it out p s'' c' h q
      rw [applyLoop] at h ⊢
      rcases hn : it.nextWith (readSectionComp dbg cdc) with ⟨o, it'⟩
      rw [hn] at h
      rcases o with _ | ⟨ops, sh⟩ | e | _ | _ <;> simp only at h ⊢
      · simp only [Prod.mk.injEq] at h
        exact ⟨_, by rw [h.2.1]⟩
      · cases hx : exec src ops out with
        | some mid =>
          have ha := applyOps_some (old := []) (p := p) hx
          have hb := applyOps_some (old := c₀.data) (p := q) hx
          simp only [over_nil] at ha
          rw [ha] at h
          rw [hb]
          exact ih _ _ _ _ _ h _
        | none =>
          obtain ⟨o1, op1, hst⟩ := exec_none hx
          obtain ⟨p', hp⟩ := applyOps_none (p := p) hst
          rw [hp] at h
          have h := (failLoop src op1 _ it'.source ⟨o1, p'⟩).symm.trans h
          simp only [Prod.mk.injEq] at h
          have := h.1
          unfold failUnit at this
          split at this <;> simp at this
      all_goals simp at h
  obtain ⟨cc, hcc⟩ := aux _ _ [] 0 _ _ hx c₀.pos
  have hcc' := applyLoop_mono_ok hcc ss.length
  have key' : applyLoop (readSectionComp dbg cdc) src (patch.length + 2 + ss.length) (.new patch) 0
      ⟨over [] c₀.data, c₀.pos⟩ = _ := key
  simp only [List.length_nil] at hcc hcc'
  rw [key'] at hcc'
  simp only [Prod.mk.injEq] at hcc'
  obtain ⟨-, -, rfl⟩ := hcc'
  have e0 : over [] c₀.data = c₀.data := by simp [over]
  rw [e0] at hcc
  rw [applyPatch_eq]
  have hcc2 : applyLoop (readSectionComp dbg cdc) src (patch.length + 2) (.new patch) 0 c₀ = _ := hcc
  rw [hcc2]
  rfl

/-- **C23**, negated: on a sink with old contents an output copy beyond the output so far reads the old
contents and succeeds, where the empty sink gives an error. -/
theorem C23_stale_bytes_leak (dbg : Bool) (cdc : Codec) (src : Option Bytes) :
    applyPatch dbg cdc src [0, 2, 5, 0x82, 8, 9, 0x43, 0] ⟨[1, 2, 77], 0⟩
      = (.ok (), ⟨[8, 9, 8, 9, 77], 5⟩) ∧
    (applyPatch dbg cdc src [0, 2, 5, 0x82, 8, 9, 0x43, 0] .empty).1 = .err .eof := by
  cases dbg <;> exact ⟨rfl, rfl⟩

theorem C23_as_stated_false (cdc : Codec) :
    ¬ ∀ (dbg : Bool) (src : Option Bytes) (patch : Bytes) (c₀ : Cursor),
      (applyPatch dbg cdc src patch c₀).1 = (applyPatch dbg cdc src patch .empty).1 := by
  intro h
  have := h true none [0, 2, 5, 0x82, 8, 9, 0x43, 0] ⟨[1, 2, 77], 0⟩
  rw [(C23_stale_bytes_leak true cdc none).1, (C23_stale_bytes_leak true cdc none).2] at this
  cases this

example (cdc : Codec) : applyPatch true cdc (some [10, 11, 12, 13]) demoPatch ⟨List.replicate 12 0, 3⟩
    = (.ok (), ⟨[5, 6, 6, 11, 12, 13, 6, 11, 7, 8, 0, 0], 10⟩) :=
  C23_reused_sink _ _ _ _ _ _ (demo_apply true cdc)

/-! ## C24 -/

/-- **C24.** A patch that does not panic without a dictionary (in particular one that executes no
dictionary copy) gives the same outcome and the same sink with every dictionary. -/
theorem C24_no_dictionary_needed (dbg : Bool) (cdc : Codec) (d : Bytes) (patch : Bytes) (sink : Cursor)
    (h : (applyPatch dbg cdc none patch sink).1 ≠ .panic) :
    applyPatch dbg cdc (some d) patch sink = applyPatch dbg cdc none patch sink := by
  rw [applyPatch_eq] at h
  rw [applyPatch_eq, applyPatch_eq, applyLoop_dict d h]

/-- No dictionary copies. -/
def NoCopyD (ops : List Op) : Prop := ∀ a n, Op.copy .dict a n ∉ ops

theorem produce_noCopyD {op : Op} (h : ∀ a n, op ≠ .copy .dict a n) (s₁ s₂ : Option Bytes)
    (out : Bytes) : produce s₁ out op = produce s₂ out op := by
  rcases op with _ | ⟨_ | _, _, _⟩ | _
  · rfl
  · exact absurd rfl (h _ _)
  · rfl
  · rfl

theorem exec_noCopyD {ops : List Op} (h : NoCopyD ops) (s₁ s₂ : Option Bytes) :
    ∀ out, exec s₁ ops out = exec s₂ ops out := by
  induction ops with
  | nil => intro out; rfl
  | cons op ops ih =>
    intro out
    have h1 : ∀ a n, op ≠ .copy .dict a n := fun a n e => h a n (by simp [e])
    have h2 : NoCopyD ops := fun a n hm => h a n (by simp [hm])
    simp only [exec]
    rw [produce_noCopyD h1 s₁ s₂]
    congr 1
    funext bs
    exact ih h2 _

/-- **C24.** Grammatical patches without dictionary copies: any two dictionaries (or none) give the
same outcome and sink. -/
theorem C24_any_dictionary (dbg : Bool) (cdc : Codec) (s₁ s₂ : Option Bytes)
    (ss : List (Header × List Op)) (bs rest : Bytes)
    (h : PatchEnc (VAcc dbg) ss bs) (hc : ∀ s ∈ ss, Consistent s.1 s.2)
    (hal : ∀ s ∈ ss, s.1.algo ≠ 1 ∧ s.1.algo ≠ 2 ∧ s.1.algo ≠ 3)
    (hn : NoCopyD (ss.flatMap (·.2))) :
    applyPatch dbg cdc s₁ (bs ++ rest) .empty = applyPatch dbg cdc s₂ (bs ++ rest) .empty := by
  have key : (applyPatch dbg cdc none (bs ++ rest) .empty).1 ≠ .panic := by
    cases he : meaning none (ss.flatMap (·.2)) with
    | some out => rw [C20_meaning_is_ok dbg cdc none ss bs rest out h hc hal he]; simp
    | none =>
      obtain ⟨h1, h2⟩ := readSeqComp_of_patch (cdc := cdc) h hc hal rest
      obtain ⟨out, op, hst⟩ := exec_none he
      obtain ⟨r', p', e⟩ := applyLoop_none (rd := readSectionComp dbg cdc) (src := none) (out := [])
        (out' := out) (op := op) (f := (bs ++ rest).length + 2) (p := 0) h2 h1
        (by have := PatchEnc.length h; simp only [List.length_map, List.length_append]; omega)
        (by rw [List.flatMap_map]; exact hst)
      have e' : (applyPatch dbg cdc none (bs ++ rest) .empty).1 = failUnit none op := by
        have : applyLoop (readSectionComp dbg cdc) none ((bs ++ rest).length + 2) (.new (bs ++ rest)) 0
          .empty = (failUnit none op, r', ⟨out, p'⟩) := by
            simpa [SectionIterator.new, Cursor.empty] using e
        rw [applyPatch_eq, this]
      rw [e']
      obtain ⟨pre, post, e1, -, -⟩ := hst
      rcases op with _ | ⟨_ | _, a, n⟩ | _
      · simp [failUnit]
      · exact absurd (by rw [e1]; simp) (hn a n)
      · simp [failUnit]
      · simp [failUnit]
  have f : ∀ s, applyPatch dbg cdc s (bs ++ rest) .empty = applyPatch dbg cdc none (bs ++ rest) .empty := by
    intro s
    cases s with
    | none => rfl
    | some d => exact C24_no_dictionary_needed dbg cdc d _ _ key
  rw [f s₁, f s₂]

/-- **C24.** A dictionary copy that is reached without a dictionary panics. -/
theorem C24_missing_dictionary_panics (dbg : Bool) (cdc : Codec)
    (ss : List (Header × List Op)) (bs rest out : Bytes) (pre post : List Op) (a : UInt64) (n : UInt16)
    (h : PatchEnc (VAcc dbg) ss bs) (hc : ∀ s ∈ ss, Consistent s.1 s.2)
    (hal : ∀ s ∈ ss, s.1.algo ≠ 1 ∧ s.1.algo ≠ 2 ∧ s.1.algo ≠ 3)
    (hops : ss.flatMap (·.2) = pre ++ .copy .dict a n :: post) (hpre : meaning none pre = some out) :
    (applyPatch dbg cdc none (bs ++ rest) .empty).1 = .panic := by
  obtain ⟨h1, h2⟩ := readSeqComp_of_patch (cdc := cdc) h hc hal rest
  obtain ⟨r', p', e⟩ := applyLoop_none (rd := readSectionComp dbg cdc) (src := none) (out := [])
    (out' := out) (op := .copy .dict a n) (f := (bs ++ rest).length + 2) (p := 0) h2 h1
    (by have := PatchEnc.length h; simp only [List.length_map, List.length_append]; omega)
    (by rw [List.flatMap_map]; exact ⟨pre, post, hops, hpre, rfl⟩)
  have e' : applyLoop (readSectionComp dbg cdc) none ((bs ++ rest).length + 2) (.new (bs ++ rest)) 0
      .empty = (.panic, r', ⟨out, p'⟩) := by
    simpa [SectionIterator.new, Cursor.empty, failUnit] using e
  rw [applyPatch_eq, e']

example : (applyPatch true storedCodec none [0, 1, 3, 0x03, 0] .empty).1 = .panic ∧
    applyPatch true storedCodec none [0, 1, 2, 0xC2, 6] .empty
      = applyPatch true storedCodec (some [1]) [0, 1, 2, 0xC2, 6] .empty := by decide

/-! ## C25 -/

theorem totalLen_le (ops : List Op) (h : ∀ op ∈ ops, opLen op ≤ 65535) :
    totalLen ops ≤ 65535 * ops.length := by
  induction ops with
  | nil => simp [totalLen]
  | cons op ops ih =>
    have h1 := h op (by simp)
    have h2 := ih (fun o ho => h o (by simp [ho]))
    simp only [totalLen, List.map_cons, List.sum_cons, List.length_cons] at h2 ⊢
    omega

theorem sizeEnc_le {ty : Nat} {bs : Bytes} {n : Nat} (h : SizeEnc ty bs n) : n ≤ 65535 := by
  cases h with
  | short => omega
  | mid v => have := v.toNat_lt; omega
  | long lo hi => have := lo.toNat_lt; have := hi.toNat_lt; omega

theorem opsEnc_le {V : Bytes → Nat → Prop} {inl : Bool} {ops : List Op} :
    ∀ {d o : UInt64} {bs : Bytes}, OpsEnc V inl d o ops bs → ∀ op ∈ ops, opLen op ≤ 65535 := by
  induction ops with
  | nil => simp
  | cons op ops ih =>
    intro d o bs h x hx
    cases h with
    | cons _ _ _ _ _ _ _ _ h1 h2 =>
      simp at hx
      rcases hx with rfl | hx
      · cases h1 with
        | run b n _ h => simp only [opLen]; omega
        | add _ _ h => exact sizeEnc_le h
        | copyD _ _ _ _ _ h => exact sizeEnc_le h
        | copyO _ _ _ _ _ h => exact sizeEnc_le h
      · exact ih h2 x hx

theorem bodyAt_le {V : Bytes → Nat → Prop} {cdc : Codec} {algo : Nat} {seg : Bool} {ops : List Op}
    {s rest : Bytes} (h : BodyAt V cdc algo seg ops s rest) : ∀ op ∈ ops, opLen op ≤ 65535 := by
  unfold BodyAt at h
  split at h
  · obtain ⟨_, _, _, _, _, _, _, ib, h, _⟩ := h; exact opsEnc_le h
  · split at h
    · obtain ⟨_, _, _, _, _, _, ib, h, _⟩ := h; exact opsEnc_le h
    · split at h
      · obtain ⟨_, _, _, _, _, _, _, ib, h, _⟩ := h; exact opsEnc_le h
      · obtain ⟨_, _, ib, h, _⟩ := h; exact opsEnc_le h

theorem sectionsAt_sum {V : Bytes → Nat → Prop} {cdc : Codec} {ss : List (Header × List Op)} :
    ∀ {s rest : Bytes}, SectionsAt V cdc ss s rest →
    (∀ t ∈ ss, totalLen t.2 < 2 ^ 32 ∨ t.2.length ≤ 65537) →
    (ss.map fun t => (t.1.nAdd + t.1.size) % 2 ^ 32).sum = totalLen (ss.flatMap (·.2)) := by
  induction ss with
  | nil => intro s rest _ _; rfl
  | cons t ss ih =>
    intro s rest h hb
    cases h with
    | cons hd ops _ _ s' _ h1 h2 =>
      have e := ih h2 (fun t ht => hb t (by simp [ht]))
      obtain ⟨_, _, _, _, hbody, _, hsum⟩ := h1
      have hlt : totalLen ops < 2 ^ 32 := by
        rcases hb _ (List.mem_cons_self ..) with h | h
        · exact h
        · have := totalLen_le ops (bodyAt_le hbody)
          simp only at h
          omega
      simp only [List.map_cons, List.sum_cons, e, hsum, Nat.mod_eq_of_lt hlt, List.flatMap_cons]
      simp [totalLen]

/-- **C25.** On success the output has as many bytes as the headers of the sections announce
(`nAdd + size`, the output size field of either format), if the build is a debug build or no
section has more than 65537 operations. -/
theorem C25_output_size (dbg : Bool) (cdc : Codec) (src : Option Bytes) (patch : Bytes) (c : Cursor)
    (h : applyPatch dbg cdc src patch .empty = (.ok (), c)) :
    ∃ ss rest, SectionsAt (VRead dbg) cdc ss patch rest ∧ Terminated ss ∧
      meaning src (ss.flatMap (·.2)) = some c.data ∧
      ((dbg = true ∨ ∀ t ∈ ss, t.2.length ≤ 65537) →
        c.data.length = (ss.map fun t => (t.1.nAdd + t.1.size) % 2 ^ 32).sum) := by
  rw [applyPatch_eq] at h
  rcases hx : applyLoop (readSectionComp dbg cdc) src (patch.length + 2) (.new patch) 0 .empty
    with ⟨r, rest, c'⟩
  rw [hx] at h
  simp only [Prod.mk.injEq] at h
  obtain ⟨rfl, rfl⟩ := h
  obtain ⟨ss, s', h1, h2, -⟩ := applyLoop_inv (out := []) (p := 0) hx
  obtain ⟨hm, rfl, he⟩ := h2 rfl
  obtain ⟨hs, g1, g2, g3, g4, -⟩ := sectionsAt_of_readSeq h1
  rw [← flatMap_snd_eq g2] at he
  refine ⟨hs, s', g1, terminated_of_moreBits hm g3, he, fun hb => ?_⟩
  rw [sectionsAt_sum g1]
  · have := exec_length he
    simpa using this
  · intro t ht
    rcases hb with hb | hb
    · exact .inl (g4 hb t ht)
    · exact .inr (hb t ht)

/-! ## C26 -/

/-- **C26.** Bytes behind the terminal section change neither outcome nor sink, for any sink, if the
compression libraries read exactly one frame each. -/
theorem C26_trailing_bytes (dbg : Bool) (cdc : Codec) (hcdc : Framed cdc) (src : Option Bytes)
    (patch q : Bytes) (sink c : Cursor) (h : applyPatch dbg cdc src patch sink = (.ok (), c)) :
    applyPatch dbg cdc src (patch ++ q) sink = (.ok (), c) := by
  rw [applyPatch_eq] at h
  rcases hx : applyLoop (readSectionComp dbg cdc) src (patch.length + 2) (.new patch) 0 sink
    with ⟨r, rest, c'⟩
  rw [hx] at h
  simp only [Prod.mk.injEq] at h
  obtain ⟨rfl, rfl⟩ := h
  have := applyLoop_mono_ok (applyLoop_ext (okStable_readSectionComp dbg hcdc) q hx) q.length
  rw [applyPatch_eq, List.length_append, show patch.length + q.length + 2 = patch.length + 2 + q.length by omega]
  have e : applyLoop (readSectionComp dbg cdc) src (patch.length + 2 + q.length) (.new (patch ++ q)) 0 sink
    = _ := this
  rw [e]

/-- **C26** without secondary compression: nothing is assumed about libraries, and the appended
bytes stay unread. -/
theorem C26_trailing_bytes_no_sec_comp (dbg : Bool) (src : Option Bytes) (patch q rest : Bytes)
    (sink c : Cursor) (h : applyNoSecComp dbg src patch sink = (.ok (), rest, c)) :
    applyNoSecComp dbg src (patch ++ q) sink = (.ok (), rest ++ q, c) := by
  have := applyLoop_mono_ok (applyLoop_ext (okStable_of_stable (stable_readSection dbg)) q h) q.length
  unfold applyNoSecComp
  rw [List.length_append, show patch.length + q.length + 2 = patch.length + 2 + q.length by omega]
  exact this

example (dbg : Bool) (q : Bytes) :
    applyPatch dbg storedCodec (some [10, 11, 12, 13]) (demoPatch ++ q) .empty
      = (.ok (), ⟨[5, 6, 6, 11, 12, 13, 6, 11, 7, 8], 10⟩) :=
  C26_trailing_bytes dbg _ stored_framed _ _ _ _ _ (demo_apply dbg _)

end Smdiff
