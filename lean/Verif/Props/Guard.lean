import Verif.Lemmas.Guard
import Verif.Props.Decoder
/-!
# C112: the counts of a section guard each other

The grammar (`HeaderEnc`, `BodyEnc`, `SectionEnc`, `Consistent`) is that of `Spec.lean`.
-/
namespace Smdiff
open Spec

theorem prefix_total {a b : List Op} (h : a.map opLen <+: b.map opLen) :
    ∃ ls : List Nat, ls.length = b.length - a.length ∧ b.map opLen = a.map opLen ++ ls ∧
      totalLen b = totalLen a + ls.sum ∧ totalLen a = totalLen (b.take a.length) := by
  obtain ⟨t, ht⟩ := h
  have e2 := congrArg List.length ht
  simp only [List.length_append, List.length_map] at e2
  refine ⟨t, by omega, ht.symm, by rw [totalLen, totalLen, ← ht, List.sum_append], ?_⟩
  rw [totalLen, totalLen, List.map_take, ← ht, List.take_left' (by simp)]

theorem mem_le_sum {x : Nat} : ∀ {l : List Nat}, x ∈ l → x ≤ l.sum := by
  intro l
  induction l with
  | nil => simp
  | cons y l ih =>
    intro h
    rw [List.sum_cons]
    rcases List.mem_cons.1 h with rfl | h
    · omega
    · have := ih h; omega

theorem legal_len {op : Op} (h : Legal op) : opLen op ≤ 65535 := by
  rcases op with ⟨b, n⟩ | ⟨s, a, n⟩ | bs
  · simp only [Legal] at h; simp only [opLen]; omega
  · have := UInt16.toNat_lt n
    simp only [opLen]; omega
  · simpa only [Legal, opLen] using h

/-- What is accepted behind a header. -/
theorem noComp_guard {dbg : Bool} {h : Header} {ops ops' : List Op} {ob tail rest : Bytes} {sh : SectionHeader}
    (h0 : h.seg = false → h.nAdd = 0) (hbody : BodyEnc (VAcc dbg) h.seg ops ob)
    (hops : ops.length < 2 ^ 32) (htot : totalLen ops < 2 ^ 32) (hn : h.nOps < 2 ^ 32) (hsum : h.nAdd + h.size < 2 ^ 32)
    (e : readOpsNoComp dbg h.read (ob ++ tail) = (.ok (ops', sh), rest)) :
    (h.nOps ≤ ops.length → h.nAdd + h.size = totalLen (ops.take h.nOps)) ∧
    (ops.length ≤ h.nOps → (dbg = true ∨ h.nOps ≤ 65537) →
      rest.length + (h.nOps - ops.length) ≤ tail.length ∧
      ∃ ls : List Nat, ls.length = h.nOps - ops.length ∧ ops'.map opLen = ops.map opLen ++ ls ∧
        h.nAdd + h.size = totalLen ops + ls.sum) := by
  let h2 : Header := { h with nOps := ops.length, nAdd := 0, size := totalLen ops }
  have hle := addBytes_le ops
  have e2 := readOpsNoComp_of_enc dbg h2 ops (bs := ob) hbody
    ⟨hops, by show ops.length % 2 ^ 32 = _; omega⟩ (by show (0 + totalLen ops) % 2 ^ 32 = _; omega) (fun _ => rfl)
    (fun _ => htot) (fun _ _ => by show 0 % 2 ^ 32 + _ < _; omega) tail
  obtain ⟨f1, f2, f3, f4⟩ := readOpsNoComp_fields e
  have g1 : h.read.numOperations.toNat = h.nOps := by simp [Header.read, UInt32.toNat_ofNat']; omega
  have g2 : h2.read.numOperations.toNat = ops.length := by simp [Header.read, h2, UInt32.toNat_ofNat']; omega
  have g3 : h.read.outputSize.toNat = h.nAdd + h.size := by
    simp only [Header.read]
    split
    · rw [UInt32.toNat_ofNat']; omega
    · next hs => rw [UInt32.toNat_ofNat', h0 (by simpa using hs)]; omega
  have hfmt : h2.read.format = h.read.format := rfl
  rw [g1] at f1
  rw [g3] at f2
  constructor
  · intro hk
    obtain ⟨hp, -⟩ := readOpsNoComp_prefix (h := h.read) (h' := h2.read) hfmt (by omega) e e2
    obtain ⟨ls, -, -, p1, p2⟩ := prefix_total hp
    rw [f1] at p2
    omega
  · intro hk hs
    obtain ⟨hp, hr, -⟩ := readOpsNoComp_prefix (h := h2.read) (h' := h.read) hfmt.symm (by omega) e2 e
    obtain ⟨ls, p0, p1, p2, -⟩ := prefix_total hp
    have hlt : totalLen ops' < 2 ^ 32 := by
      rcases hs with hd | hs
      · exact f3 hd
      · have := totalLen_le ops' fun op ho => legal_len (f4 op ho)
        rw [f1] at this
        omega
    exact ⟨by omega, ls, by omega, p1, by omega⟩

/-- **C112** (what a reader accepts behind a header). Let the bytes of some operations - anything may follow - stand behind
a header.  If the section is read, then the output size that the header states is the sum of the lengths: of the
first operations, if the header counts less of them than there are; of all of them and those that are read
from what follows, if it counts more (a release build adds modulo `2^32`, hence the limit). -/
theorem C112_guard (dbg : Bool) (h : Header) (ops ops' : List Op) (hb ob tail rest : Bytes) (sh : SectionHeader)
    (hh : HeaderEnc (VAcc dbg) h hb) (hbody : BodyEnc (VAcc dbg) h.seg ops ob)
    (hops : ops.length < 2 ^ 32) (htot : totalLen ops < 2 ^ 32) (hn : h.nOps < 2 ^ 32) (hsum : h.nAdd + h.size < 2 ^ 32)
    (e : readSection dbg (hb ++ (ob ++ tail)) = (.ok (ops', sh), rest)) :
    (h.nOps ≤ ops.length → h.nAdd + h.size = totalLen (ops.take h.nOps)) ∧
    (ops.length ≤ h.nOps → (dbg = true ∨ h.nOps ≤ 65537) →
      rest.length + (h.nOps - ops.length) ≤ tail.length ∧
      ∃ ls : List Nat, ls.length = h.nOps - ops.length ∧ ops'.map opLen = ops.map opLen ++ ls ∧
        h.nAdd + h.size = totalLen ops + ls.sum) := by
  unfold readSection at e
  have e1 := readSectionHeader_of_enc dbg h (hh.mono (fun _ _ hv => hv.1)) (fun _ _ => by omega) (ob ++ tail)
  rw [IOm.bind_ok e1] at e
  exact noComp_guard (headerEnc_nAdd hh) hbody hops htot hn hsum e

/-- **C112** (one wrong count). Give a section another header of the same format.  If only the way the output size is split
into two numbers differs, nothing changes: nobody looks at it.  If only the output size differs, the section is
refused.  If only the number of operations differs, it is refused too, unless the operations left out are all
empty, or those that are read too much are (and then they come from the bytes behind the section). -/
theorem C112_header (dbg : Bool) (h h' : Header) (ops : List Op) (hb' ob tail : Bytes)
    (hbody : BodyEnc (VAcc dbg) h.seg ops ob) (hc : Consistent h ops)
    (hh' : HeaderEnc (VAcc dbg) h' hb') (hseg : h'.seg = h.seg) (hn : h'.nOps < 2 ^ 32)
    (hsum : h'.nAdd + h'.size < 2 ^ 32) :
    (h'.nOps = h.nOps → h'.nAdd + h'.size = h.nAdd + h.size →
      ∃ sh, readSection dbg (hb' ++ (ob ++ tail)) = (.ok (ops, sh), tail)) ∧
    (h'.nOps = h.nOps → h'.nAdd + h'.size ≠ h.nAdd + h.size →
      ∀ x, (readSection dbg (hb' ++ (ob ++ tail))).1 ≠ .ok x) ∧
    (h'.nOps < h.nOps → h'.nAdd + h'.size = h.nAdd + h.size → (∃ op ∈ ops.drop h'.nOps, opLen op ≠ 0) →
      ∀ x, (readSection dbg (hb' ++ (ob ++ tail))).1 ≠ .ok x) ∧
    (h.nOps < h'.nOps → h'.nAdd + h'.size = h.nAdd + h.size → (dbg = true ∨ h'.nOps ≤ 65537) →
      ∀ (ops' : List Op) sh rest, readSection dbg (hb' ++ (ob ++ tail)) = (.ok (ops', sh), rest) →
        ops'.map opLen = ops.map opLen ++ List.replicate (h'.nOps - h.nOps) 0 ∧
        rest.length + (h'.nOps - h.nOps) ≤ tail.length) := by
  obtain ⟨c1, c2, c3, c4, c5⟩ := hc
  have hle := addBytes_le ops
  have hbody' : BodyEnc (VAcc dbg) h'.seg ops ob := by rw [hseg]; exact hbody
  have key : ∀ (ops' : List Op) (sh : SectionHeader) (rest : Bytes),
      readSection dbg (hb' ++ (ob ++ tail)) = (.ok (ops', sh), rest) → _ := fun ops' sh rest e =>
    C112_guard dbg h' ops ops' hb' ob tail rest sh hh' hbody' c2 (by omega) hn hsum e
  refine ⟨fun h1 h2 => ?_, fun h1 h2 x hx => ?_, fun h1 h2 h3 x hx => ?_, fun h1 h2 h3 ops' sh rest e => ?_⟩
  · have := readSection_of_enc dbg h' ops ⟨hb', ob, hh', hbody', rfl⟩ ⟨c2, by omega⟩ (by omega) (fun _ => by omega)
      (fun _ _ => by omega) (fun _ _ => by omega) tail
    rw [List.append_assoc] at this
    exact ⟨_, this⟩
  · rcases e : readSection dbg (hb' ++ (ob ++ tail)) with ⟨r, rest⟩
    rw [e] at hx
    simp only at hx
    subst hx
    have := (key _ _ _ e).1 (by omega)
    rw [List.take_of_length_le (by omega)] at this
    omega
  · rcases e : readSection dbg (hb' ++ (ob ++ tail)) with ⟨r, rest⟩
    rw [e] at hx
    simp only at hx
    subst hx
    have hk := (key _ _ _ e).1 (by omega)
    have hsplit : totalLen ops = totalLen (ops.take h'.nOps) + totalLen (ops.drop h'.nOps) := by
      rw [← totalLen_append, List.take_append_drop]
    obtain ⟨op, h4, h5⟩ := h3
    have : opLen op ≤ totalLen (ops.drop h'.nOps) :=
      mem_le_sum (List.mem_map_of_mem h4)
    omega
  · obtain ⟨k1, ls, k2, k3, k4⟩ := (key _ _ _ e).2 (by omega) h3
    have hz : ls.sum = 0 := by omega
    have : ls = List.replicate (h'.nOps - h.nOps) 0 := by
      rw [List.eq_replicate_iff]
      refine ⟨by omega, fun x hx => ?_⟩
      have := mem_le_sum hx
      omega
    exact ⟨by rw [k3, this], by omega⟩

/-- **C112** (wrong lengths). Whatever happens to the lengths of the operations of a section - the number stays -, the section
is refused when their sum is not what it was. -/
theorem C112_lengths (dbg : Bool) (h : Header) (ops ops' : List Op) (bs' tail : Bytes) (hc : Consistent h ops)
    (he : SectionEnc (VAcc dbg) h ops' bs') (hn : ops'.length = ops.length) (htot : totalLen ops' < 2 ^ 32)
    (hne : totalLen ops' ≠ totalLen ops) : ∀ x, (readSection dbg (bs' ++ tail)).1 ≠ .ok x := by
  obtain ⟨c1, c2, c3, c4, c5⟩ := hc
  obtain ⟨hb, ob, hh, hbody, rfl⟩ := he
  intro x hx
  rcases e : readSection dbg (hb ++ ob ++ tail) with ⟨r, rest⟩
  rw [e] at hx
  simp only at hx
  subst hx
  rw [List.append_assoc] at e
  have := (C112_guard dbg h ops' x.1 hb ob tail rest x.2 hh hbody (by omega) htot (by omega) (by omega) e).1 (by omega)
  rw [List.take_of_length_le (by omega)] at this
  omega

/-- Sections that are fine, and then one that is refused. -/
theorem applyLoop_until {rd : IOm Bytes (List Op × SectionHeader)} {src : Option Bytes} {bad : Bytes}
    (hbad : ∀ x, (rd bad).1 ≠ .ok x) : ∀ {ss : List (List Op × SectionHeader)} {s out out' : Bytes} {f p : Nat},
    (∀ x ∈ ss, x.2.moreSections = true) → ReadSeq rd ss s bad → ss.length + 1 ≤ f →
    exec src (ss.flatMap (·.1)) out = some out' →
    ∃ r rest p', r ≠ .ok () ∧ applyLoop rd src f ⟨s, false⟩ out.length ⟨over out [], p⟩ = (r, rest, ⟨out', p'⟩) := by
  intro ss
  induction ss with
  | nil =>
    intro s out out' f p _ hs hf he
    cases hs
    simp only [List.flatMap_nil, exec, Option.some.injEq] at he
    subst he
    simp only [List.length_nil] at hf
    obtain ⟨f, rfl⟩ : ∃ g, f = g + 1 := ⟨f - 1, by omega⟩
    rw [over_nil]
    rcases e : rd bad with ⟨x | er | _ | _, rest⟩
    · exact absurd (by rw [e]) (hbad x)
    · exact ⟨.err er, rest, p, by simp, by simp [applyLoop, SectionIterator.nextWith, e]⟩
    · exact ⟨.panic, rest, p, by simp, by simp [applyLoop, SectionIterator.nextWith, e]⟩
    · exact ⟨.diverge, rest, p, by simp, by simp [applyLoop, SectionIterator.nextWith, e]⟩
  | cons t ss ih =>
    intro s out out' f p hm hs hf he
    cases hs with
    | cons ops sh _ _ s' _ hr hs' =>
      simp only [List.flatMap_cons] at he
      rw [exec_append, Option.bind_eq_some_iff] at he
      obtain ⟨mid, he1, he2⟩ := he
      simp only [List.length_cons] at hf
      obtain ⟨f, rfl⟩ : ∃ g, f = g + 1 := ⟨f - 1, by omega⟩
      rw [applyLoop]
      have ha := applyOps_some (old := []) (p := p) he1
      simp only [SectionIterator.nextWith, hr, ha, Bool.false_eq_true, if_false]
      have hmore := hm (ops, sh) (by simp)
      simp only at hmore
      rw [hmore]
      exact ih (fun x hx => hm x (by simp [hx])) hs' (by omega) he2

/-- **C112** (in a patch). If, behind sections that are fine, a section is refused for such a wrong number, `apply_patch`
reports it, and the sink holds what the sections before it stand for. -/
theorem C112_patch (dbg : Bool) (cdc : Codec) (src : Option Bytes) (ss : List (Header × List Op)) (xs : List Bytes)
    (out bad : Bytes)
    (h : List.Forall₂ (fun s x => s.1.more = true ∧ SectionEnc (VAcc dbg) s.1 s.2 x) ss xs)
    (hc : ∀ s ∈ ss, Consistent s.1 s.2) (hal : ∀ s ∈ ss, s.1.algo ≠ 1 ∧ s.1.algo ≠ 2 ∧ s.1.algo ≠ 3)
    (hm : meaning src (ss.flatMap (·.2)) = some out)
    (hbad : ∀ x, (readSection dbg bad).1 ≠ .ok x)
    (hplain : ∀ hd s, readSectionHeader dbg bad = (.ok hd, s) →
      hd.compressionAlgo ≠ 1 ∧ hd.compressionAlgo ≠ 2 ∧ hd.compressionAlgo ≠ 3) :
    ∃ r c, applyPatch dbg cdc src (xs.flatten ++ bad) .empty = (r, c) ∧ r ≠ .ok () ∧ c.data = out := by
  have hbad' : ∀ x, (readSectionComp dbg cdc bad).1 ≠ .ok x := by
    intro x hx
    unfold readSectionComp at hx
    rcases e : readSectionHeader dbg bad with ⟨hd | er | _ | _, s⟩
    · rw [IOm.bind_ok e] at hx
      obtain ⟨p1, p2, p3⟩ := hplain hd s e
      rw [readOpsComp_plain _ _ _ _ p1 p2 p3] at hx
      refine hbad x ?_
      unfold readSection
      rw [IOm.bind_ok e]
      exact hx
    all_goals simp [IOm.bind_run, e] at hx
  have hseq : ReadSeq (readSectionComp dbg cdc) (ss.map fun s => (s.2, readHeader s.1 s.2)) (xs.flatten ++ bad) bad := by
    clear hm
    induction h with
    | nil => exact .nil _
    | cons hx _ ih =>
      next s x ss xs _ =>
      have := readSectionComp_of_enc (cdc := cdc) hx.2 (hc s (by simp)) (hal s (by simp)) (xs.flatten ++ bad)
      rw [List.flatten_cons, List.append_assoc]
      exact .cons _ _ _ _ _ _ this (ih (fun s hs => hc s (by simp [hs])) (fun s hs => hal s (by simp [hs])))
  have hlen : ss.length ≤ xs.flatten.length := by
    clear hseq hm hc hal
    induction h with
    | nil => simp
    | cons hx _ ih =>
      next s x ss xs _ =>
      obtain ⟨-, hb, ob, ⟨_, _, b1, b2, b3, _, _, _, rfl⟩, _, rfl⟩ := hx
      simp only [List.length_cons, List.flatten_cons, List.length_append]
      omega
  have hmore : ∀ x ∈ ss.map (fun s => (s.2, readHeader s.1 s.2)), x.2.moreSections = true := by
    intro x hx
    obtain ⟨s, h1, rfl⟩ := List.mem_map.1 hx
    have : ∀ s ∈ ss, s.1.more = true := by
      clear hseq hm hc hal hlen hx h1
      induction h with
      | nil => simp
      | cons hx _ ih =>
        intro s hs
        rcases List.mem_cons.1 hs with rfl | hs
        · exact hx.1
        · exact ih s hs
    exact this s h1
  obtain ⟨r, rest, p', h1, h2⟩ := applyLoop_until hbad' (src := src) (out := []) (out' := out)
    (f := (xs.flatten ++ bad).length + 2) (p := 0) hmore hseq
    (by simp only [List.length_map, List.length_append]; omega) (by rw [List.flatMap_map]; exact hm)
  rw [applyPatch_eq]
  rw [over_nil] at h2
  refine ⟨r, ⟨out, p'⟩, ?_, h1, rfl⟩
  have h2' : applyLoop (readSectionComp dbg cdc) src ((xs.flatten ++ bad).length + 2) (.new (xs.flatten ++ bad)) 0 .empty
    = (r, rest, ⟨out, p'⟩) := h2
  rw [h2']

/-! ### The hypotheses are met -/

theorem one_byte {n : UInt8} (h : n.toNat < 128) : VAcc true [n] n.toNat :=
  ⟨⟨n.toNat, .last n h, by simp, by omega⟩, fun _ => by omega⟩

/-- A section of an Add of one byte and a Run of two, in interleaved format. -/
theorem guard_body : BodyEnc (VAcc true) false [.add [5], .run 6 2] [0x81, 5, 0xC2, 6] :=
  ⟨[0x81, 5, 0xC2, 6], .cons _ _ _ _ _ _ [0x81, 5] _ (.add 0 0 [0x81] [5] (.short 1 (by omega) (by omega)))
    (.cons _ _ _ _ _ _ [0xC2, 6] [] (.run 0 0 6 2 (by decide) (by decide)) (.nil _ _)), rfl⟩

theorem guard_header (n m : UInt8) (hn : n.toNat < 128) (hm : m.toNat < 128) :
    HeaderEnc (VAcc true) { nOps := n.toNat, size := m.toNat } [0, n, m] :=
  ⟨by show 0 < 8; omega, by show 0 < 8; omega, [n], [], [m], one_byte hn, ⟨rfl, rfl⟩, one_byte hm, rfl⟩

theorem guard_consistent : Consistent { nOps := 2, size := 3 } [.add [5], .run 6 2] := by
  unfold Consistent; decide

/-- The right header, one with a wrong size, and two with a wrong number of operations; the last is refused for want of
bytes, and accepted when an empty Add happens to follow. -/
example : (readSection true [0, 2, 3, 0x81, 5, 0xC2, 6]).1 =
    .ok ([.add [5], .run 6 2], { numOperations := 2, numAddBytes := 0, outputSize := 3 }) ∧
    (readSection true [0, 2, 4, 0x81, 5, 0xC2, 6]).1 = .err .invalidData ∧
    (readSection true [0, 1, 3, 0x81, 5, 0xC2, 6]).1 = .err .invalidData ∧
    (readSection true [0, 3, 3, 0x81, 5, 0xC2, 6]).1 = .err .eof ∧
    (readSection true [0, 3, 3, 0x81, 5, 0xC2, 6, 0x80, 0, 0]).1 =
      .ok ([.add [5], .run 6 2, .add []], { numOperations := 3, numAddBytes := 0, outputSize := 3 }) := by
  decide +kernel

/-- The hypotheses of `C112_header`: a wrong size, too few and too many operations. -/
example : BodyEnc (VAcc true) false [.add [5], .run 6 2] [0x81, 5, 0xC2, 6] ∧
    Consistent { nOps := 2, size := 3 } [.add [5], .run 6 2] ∧
    HeaderEnc (VAcc true) { nOps := 2, size := 4 } [0, 2, 4] ∧ HeaderEnc (VAcc true) { nOps := 1, size := 3 } [0, 1, 3] ∧
    HeaderEnc (VAcc true) { nOps := 3, size := 3 } [0, 3, 3] ∧
    (∃ op ∈ ([.add [5], .run 6 2] : List Op).drop 1, opLen op ≠ 0) :=
  ⟨guard_body, guard_consistent, guard_header 2 4 (by decide) (by decide), guard_header 1 3 (by decide) (by decide),
    guard_header 3 3 (by decide) (by decide), .run 6 2, by simp, by decide⟩

/-- The split of the output size in a segregated section: one add byte and two others, or none and three. -/
example : (readSection true [0x40, 2, 1, 2, 0x81, 0xC2, 6, 5]).1 =
      .ok ([.add [5], .run 6 2], { format := .segregated, numOperations := 2, numAddBytes := 2, outputSize := 3 }) ∧
    (readSection true [0x40, 2, 0, 3, 0x81, 0xC2, 6, 5]).1 =
      .ok ([.add [5], .run 6 2], { format := .segregated, numOperations := 2, numAddBytes := 1, outputSize := 3 }) := by
  decide +kernel

/-- The hypotheses of `C112_patch`: a section that is fine, and one whose size is wrong. -/
example (cdc : Codec) : ∃ r c, applyPatch true cdc none ([[128, 1, 1, 0x81, 5]].flatten ++ [0, 2, 4, 0x81, 5, 0xC2, 6]) .empty
    = (r, c) ∧ r ≠ .ok () ∧ c.data = [5] := by
  refine C112_patch true cdc none [({ more := true, nOps := 1, size := 1 }, [.add [5]])] _ [5] _
    (.cons ⟨rfl, [128, 1, 1], [0x81, 5], ⟨by decide, by decide, [1], [], [1], one_byte (by decide), ⟨rfl, rfl⟩,
      one_byte (by decide), rfl⟩, ⟨[0x81, 5], .cons _ _ _ _ _ _ [0x81, 5] []
        (.add 0 0 [0x81] [5] (.short 1 (by omega) (by omega))) (.nil _ _), rfl⟩, rfl⟩ .nil)
    (by unfold Consistent; decide) (by simp) rfl ?_ ?_
  · have := (C112_header true { nOps := 2, size := 3 } { nOps := 2, size := 4 } [.add [5], .run 6 2] [0, 2, 4] _ []
      guard_body guard_consistent (guard_header 2 4 (by decide) (by decide)) rfl (by decide) (by decide)).2.1 rfl (by decide)
    exact this
  · intro hd s h
    have e : (readSectionHeader true [0, 2, 4, 0x81, 5, 0xC2, 6]).1 = .ok { numOperations := 2, numAddBytes := 0, outputSize := 4 } := by
      decide +kernel
    rw [h] at e
    simp only [Outcome.ok.injEq] at e
    subst e
    decide

end Smdiff
