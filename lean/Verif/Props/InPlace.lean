import Verif.Lemmas.InPlace
import Verif.Props.Bounds
/-!
# C111: a patch carries no check of its own

`Stores` and `ChangedAt` are those of `SpecInPlace.lean`, `trace` and `itself` (the origins of the bytes of the output)
those of `SpecOrigin.lean`.
-/
namespace Smdiff
open Spec

theorem patchEnc_legal {V : Bytes → Nat → Prop} {ss : List (Header × List Op)} {bs : Bytes} (h : PatchEnc V ss bs) :
    ∀ s ∈ ss, ∀ op ∈ s.2, Legal op := by
  have hsec : ∀ (hd : Header) (ops : List Op) (bs : Bytes), SectionEnc V hd ops bs → ∀ op ∈ ops, Legal op := by
    rintro hd ops bs ⟨_, _, _, ⟨_, h1, _⟩, _⟩
    exact opsEnc_legal h1
  induction h with
  | last hd ops bs _ he => simpa using hsec hd ops bs he
  | more hd ops bs ss bss _ he _ ih =>
    intro s hs
    rcases List.mem_cons.1 hs with rfl | hs
    · exact hsec hd ops bs he
    · exact ih s hs

/-- The section in which an operation stands. -/
theorem flat_split {α : Type} {op : Op} {c : List Op} : ∀ {ss : List (α × List Op)} {a : List Op},
    ss.flatMap (·.2) = a ++ op :: c → ∃ (pre : List (α × List Op)) (hd : α) (a' c' : List Op) (post : List (α × List Op)),
      ss = pre ++ (hd, a' ++ op :: c') :: post ∧ a = pre.flatMap (·.2) ++ a' ∧ c = c' ++ post.flatMap (·.2) := by
  intro ss
  induction ss with
  | nil => intro a h; simp at h
  | cons s ss ih =>
    obtain ⟨hd, ops⟩ := s
    intro a h
    simp only [List.flatMap_cons] at h
    rcases List.append_eq_append_iff.1 h with ⟨a', rfl, h2⟩ | ⟨c', h1, h2⟩
    · obtain ⟨pre, hd', x, y, post, rfl, rfl, rfl⟩ := ih h2
      exact ⟨(hd, ops) :: pre, hd', x, y, post, rfl, by simp, rfl⟩
    · rcases c' with _ | ⟨o, c'⟩
      · simp only [List.append_nil, List.nil_append] at h1 h2
        subst h1
        obtain ⟨pre, hd', x, y, post, rfl, e, rfl⟩ := ih (a := []) h2.symm
        exact ⟨(hd, ops) :: pre, hd', x, y, post, rfl, by rw [List.flatMap_cons, List.append_assoc, ← e, List.append_nil], rfl⟩
      · simp only [List.cons_append, List.cons.injEq] at h2
        obtain ⟨rfl, rfl⟩ := h2
        exact ⟨[], hd, a, c', ss, by simp [h1], rfl, rfl⟩

/-- A stored byte in the patch, and what the patch with another byte there gives. -/
theorem stored_at {dbg : Bool} {cdc : Codec} {pre post : List (Header × List Op)} {hd : Header} {a c : List Op}
    {g : UInt8 → Op} {b : UInt8} {p : Bytes} (hg : Stores g)
    (h : PatchEnc (VAcc dbg) (pre ++ (hd, a ++ g b :: c) :: post) p)
    (hc : ∀ s ∈ pre ++ (hd, a ++ g b :: c) :: post, Consistent s.1 s.2)
    (hal : ∀ s ∈ pre ++ (hd, a ++ g b :: c) :: post, s.1.algo ≠ 1 ∧ s.1.algo ≠ 2 ∧ s.1.algo ≠ 3) :
    ∃ x y : Bytes, p = x ++ b :: y ∧ ∀ (src : Option Bytes) (out : Bytes) (K : Nat → Bool),
      Controls src (fun b => (pre.flatMap (·.2) ++ a) ++ g b :: (c ++ post.flatMap (·.2))) out K →
      ∀ b', ∃ out', applyPatch dbg cdc src (x ++ b' :: y) .empty = (.ok (), ⟨out', out'.length⟩) ∧
        ChangedAt K b' out out' := by
  obtain ⟨x, y, rfl, henc⟩ := patchEnc_at hg pre h
  refine ⟨x, y, rfl, fun src out K hK b' => ?_⟩
  obtain ⟨out', h1, h2⟩ := hK b'
  refine ⟨out', ?_, h2⟩
  have := C20_meaning_is_ok dbg cdc src _ _ [] out' (henc b') (fun s hs => ?_) (fun s hs => ?_) ?_
  · simpa using this
  · simp only [List.mem_append, List.mem_cons] at hs
    rcases hs with hs | rfl | hs
    · exact hc s (by simp [hs])
    · exact consistent_at hg b' (hc (hd, a ++ g b :: c) (by simp))
    · exact hc s (by simp [hs])
  · simp only [List.mem_append, List.mem_cons] at hs
    rcases hs with hs | rfl | hs
    · exact hal s (by simp [hs])
    · exact hal (hd, a ++ g b :: c) (by simp)
    · exact hal s (by simp [hs])
  · simpa [meaning] using h1

theorem rangeOf_sub {os r : List Origin} {a n : Nat} (h : rangeOf os a n = some r) : ∀ o ∈ r, o ∈ os := by
  unfold rangeOf at h
  split at h
  · simp only [Option.some.injEq] at h
    subst h
    exact fun o ho => List.mem_of_mem_drop (List.mem_of_mem_take ho)
  · cases h

/-- What is not written comes from the dictionary. -/
theorem traceFrom_sub {dict : Option (List Origin)} {P : Origin → Prop} (hw : ∀ b, P (.written b))
    (hd : ∀ d, dict = some d → ∀ o ∈ d, P o) : ∀ {ops : List Op} {out os : List Origin}, (∀ o ∈ out, P o) →
    traceFrom dict ops out = some os → ∀ o ∈ os, P o := by
  intro ops
  induction ops with
  | nil => intro out os ho h; simp only [traceFrom, Option.some.injEq] at h; subst h; exact ho
  | cons op ops ih =>
    intro out os ho h
    simp only [traceFrom, Option.bind_eq_some_iff] at h
    obtain ⟨r, h1, h2⟩ := h
    refine ih (fun o hm => ?_) h2
    rcases List.mem_append.1 hm with hm | hm
    · exact ho o hm
    · rcases op with ⟨b, n⟩ | ⟨src | src, ad, n⟩ | bs
      · simp only [producedFrom, Option.some.injEq] at h1
        subst h1
        rw [(List.mem_replicate.1 hm).2]
        exact hw b
      · simp only [producedFrom, Option.bind_eq_some_iff] at h1
        obtain ⟨d, e1, e2⟩ := h1
        exact hd d e1 o (rangeOf_sub e2 o hm)
      · exact ho o (rangeOf_sub h1 o hm)
      · simp only [producedFrom, Option.some.injEq] at h1
        subst h1
        obtain ⟨b, -, rfl⟩ := List.mem_map.1 hm
        exact hw b

/-- **C111** (a stored byte). Every byte that an Add or a Run of a patch (of uncompressed sections) stores stands
somewhere in the patch as it is.  If it is changed there, in place, the patch is as good as before: `apply_patch`
succeeds with every dictionary with which it did, and gives a file of the same length that has the new byte at some
places - at least one, and always the same - and is the old one elsewhere.  So there are changes of one byte of a
patch that no one notices. -/
theorem C111_stored_byte (dbg : Bool) (cdc : Codec) (pre post : List (Header × List Op)) (hd : Header) (a c : List Op)
    (g : UInt8 → Op) (b : UInt8) (p : Bytes) (hg : Stores g)
    (h : PatchEnc (VAcc dbg) (pre ++ (hd, a ++ g b :: c) :: post) p)
    (hc : ∀ s ∈ pre ++ (hd, a ++ g b :: c) :: post, Consistent s.1 s.2)
    (hal : ∀ s ∈ pre ++ (hd, a ++ g b :: c) :: post, s.1.algo ≠ 1 ∧ s.1.algo ≠ 2 ∧ s.1.algo ≠ 3) :
    ∃ x y : Bytes, p = x ++ b :: y ∧ ∀ (src : Option Bytes) (out : Bytes),
      meaning src ((pre ++ (hd, a ++ g b :: c) :: post).flatMap (·.2)) = some out →
      applyPatch dbg cdc src p .empty = (.ok (), ⟨out, out.length⟩) ∧
      ∃ K : Nat → Bool, (∃ k, k < out.length ∧ K k = true) ∧ ∀ b', ∃ out',
        applyPatch dbg cdc src (x ++ b' :: y) .empty = (.ok (), ⟨out', out'.length⟩) ∧ ChangedAt K b' out out' ∧
        (b' ≠ b → out' ≠ out) := by
  obtain ⟨x, y, rfl, key⟩ := stored_at (cdc := cdc) hg h hc hal
  refine ⟨x, y, rfl, fun src out hm => ?_⟩
  have happ : applyPatch dbg cdc src (x ++ b :: y) .empty = (.ok (), ⟨out, out.length⟩) := by
    have := C20_meaning_is_ok dbg cdc src _ _ [] out h hc hal hm
    simpa using this
  have hlen : 1 ≤ opLen (g b) := by
    have hl := patchEnc_legal h (hd, a ++ g b :: c) (by simp) (g b) (by simp)
    cases hg with
    | add u v => simp [opLen]; omega
    | run n => simp only [Legal] at hl; simp only [opLen]; omega
  obtain ⟨K, k1, k2⟩ := controls_of_meaning (src := src) (a := pre.flatMap (·.2) ++ a) hg (c ++ post.flatMap (·.2))
    (out := out) (by simpa using hm)
  refine ⟨happ, K, k2 hlen, fun b' => ?_⟩
  obtain ⟨out', e1, e2⟩ := key src out K k1 b'
  refine ⟨out', e1, e2, fun hb he => hb ?_⟩
  subst he
  obtain ⟨k, hk, hK⟩ := k2 hlen
  obtain ⟨o2, f1, f2⟩ := key src out' K k1 b
  rw [happ] at f1
  simp only [Prod.mk.injEq, Cursor.mk.injEq, true_and] at f1
  obtain ⟨rfl, -⟩ := f1
  have g1 := e2.2 k hk
  have g2 := f2.2 k hk
  rw [hK, if_pos rfl] at g1 g2
  rw [g1] at g2
  exact Option.some.inj g2

/-- **C111** (every written byte). A byte of the output that was not copied from the dictionary has its stored byte:
one byte of the patch has the same value, and whatever it is changed to, the output changes to at this place. -/
theorem C111_written (dbg : Bool) (cdc : Codec) (src : Option Bytes) (ss : List (Header × List Op)) (p : Bytes)
    (os : List Origin) (k : Nat) (b : UInt8) (h : PatchEnc (VAcc dbg) ss p) (hc : ∀ s ∈ ss, Consistent s.1 s.2)
    (hal : ∀ s ∈ ss, s.1.algo ≠ 1 ∧ s.1.algo ≠ 2 ∧ s.1.algo ≠ 3)
    (ht : trace (src.map itself) (ss.flatMap (·.2)) = some os) (hk : os[k]? = some (.written b)) :
    ∃ x y : Bytes, p = x ++ b :: y ∧ ∃ K : Nat → Bool, K k = true ∧ ∀ b', ∃ out',
      applyPatch dbg cdc src (x ++ b' :: y) .empty = (.ok (), ⟨out', out'.length⟩) ∧ out'[k]? = some b' ∧
      ChangedAt K b' (os.map (Origin.byte (src.getD []))) out' := by
  obtain ⟨a, g, c, K, h1, hg, hK, hC⟩ := controls_of_trace _ ht hk
  obtain ⟨pre, hd, a', c', post, rfl, rfl, rfl⟩ := flat_split h1
  obtain ⟨x, y, rfl, key⟩ := stored_at (cdc := cdc) hg h hc hal
  refine ⟨x, y, rfl, K, hK, fun b' => ?_⟩
  obtain ⟨out', e1, e2⟩ := key src _ K hC b'
  refine ⟨out', e1, ?_, e2⟩
  have hlt : k < (os.map (Origin.byte (src.getD []))).length := by
    rw [List.length_map]
    exact (List.getElem?_eq_some_iff.1 hk).1
  rw [e2.2 k hlt, hK, if_pos rfl]

/-- **C111** (what is encoded). Of what the encoder writes without secondary compression every byte of the target
either comes from a place of the dictionary, or stands in the patch - and then the byte of the patch can be changed to any
other, `apply_patch` succeeds, the file has the same length and the other byte at this place. -/
theorem C111_encoded (dbg dbgR : Bool) (cdc cdcR : Codec) (cfg : EncoderConfig) (dict : Option Bytes)
    (trgt w w' : Bytes) (hs : (dict.getD []).length < 2 ^ 63) (ht : trgt.length < 2 ^ 63) (hn : cfg.secComp = none)
    (e : encode dbg cdc cfg dict trgt w = (.ok (), w')) :
    ∃ (patch : Bytes) (os : List Origin), w' = w ++ patch ∧ trgt = os.map (Origin.byte (dict.getD [])) ∧
      (∀ i, Origin.source i ∈ os → i < (dict.getD []).length) ∧
      ∀ (k : Nat) (b : UInt8), os[k]? = some (.written b) → ∃ x y : Bytes, patch = x ++ b :: y ∧
        ∃ K : Nat → Bool, K k = true ∧ ∀ b', ∃ out',
          applyPatch dbgR cdcR dict (x ++ b' :: y) .empty = (.ok (), ⟨out', out'.length⟩) ∧ out'[k]? = some b' ∧
          ChangedAt K b' trgt out' := by
  have e' : encodePlain dbg cfg dict trgt w = (.ok (), w') := by
    rw [← e]; unfold encode encodePlain; rw [hn]; rfl
  obtain ⟨ops, ho⟩ := encodePlain_inv hs ht e'
  obtain ⟨ss, bs, h1, -, h2, h3, h4, h5, -⟩ := encodePlain_spec dbg dbgR cfg dict trgt hs ht ho
  rw [h1 w] at e'
  obtain ⟨os, t1, t2⟩ := trace_of_meaning (reads_byte (dict.getD [])) (d := dict.map itself) (by rw [itself_bytes]; exact h5)
  refine ⟨bs, os, by simpa using e'.symm, t2, ?_, fun k b hk => ?_⟩
  · have key := traceFrom_sub (P := fun o => ∀ i, o = .source i → i < (dict.getD []).length) (by simp)
      (fun d hd o ho i hi => ?_) (by simp) t1
    · exact fun i hi => key _ hi i rfl
    · subst hi
      rcases dict with _ | s
      · cases hd
      · simp only [Option.map_some, Option.some.injEq] at hd
        subst hd
        simpa [itself] using ho
  · obtain ⟨x, y, q1, K, q2, q3⟩ := C111_written dbgR cdcR dict ss bs os k b h2 h3
      (fun s hs' => by rw [h4 s hs']; decide) t1 hk
    exact ⟨x, y, q1, K, q2, fun b' => by rw [t2]; exact q3 b'⟩

/-- **C111** (without a dictionary) every byte of the target stands in the patch and can be changed there. -/
theorem C111_from_nothing (dbg dbgR : Bool) (cdc cdcR : Codec) (cfg : EncoderConfig) (trgt w w' : Bytes)
    (ht : trgt.length < 2 ^ 63) (hn : cfg.secComp = none) (e : encode dbg cdc cfg none trgt w = (.ok (), w')) :
    ∃ patch : Bytes, w' = w ++ patch ∧ ∀ (k : Nat) (b : UInt8), trgt[k]? = some b → ∃ x y : Bytes, patch = x ++ b :: y ∧
      ∀ b', ∃ out', applyPatch dbgR cdcR none (x ++ b' :: y) .empty = (.ok (), ⟨out', out'.length⟩) ∧
        out'.length = trgt.length ∧ out'[k]? = some b' := by
  obtain ⟨patch, os, rfl, h1, h2, h3⟩ := C111_encoded dbg dbgR cdc cdcR cfg none trgt w w' (by simp) ht hn e
  refine ⟨patch, rfl, fun k b hk => ?_⟩
  rw [h1, List.getElem?_map, Option.map_eq_some_iff] at hk
  obtain ⟨o, e1, e2⟩ := hk
  rcases o with c | i
  · simp only [Origin.byte] at e2
    subst e2
    obtain ⟨x, y, q1, K, -, q3⟩ := h3 k c e1
    refine ⟨x, y, q1, fun b' => ?_⟩
    obtain ⟨out', r1, r2, r3⟩ := q3 b'
    exact ⟨out', r1, r3.1, r2⟩
  · have := h2 i (List.mem_of_getElem? e1)
    simp at this

/-! ### The hypotheses are met -/

/-- The demonstration patch and what a change of the byte 6, which its Run stores, changes: the places of the run and the
place that is copied from one of them. -/
example (cdc : Codec) :
    applyPatch true cdc (some [10, 11, 12, 13]) [128, 3, 6, 0x81, 5, 0xC2, 9, 0x03, 2, 0, 2, 4, 0x42, 4, 0x82, 7, 8] .empty
      = (.ok (), ⟨[5, 9, 9, 11, 12, 13, 9, 11, 7, 8], 10⟩) := by
  rfl

/-- A Run is an operation that stores a byte, and so is an Add. -/
example : Stores (fun b => .run b 2) ∧ Stores (fun b => .add [1, b, 3]) := ⟨.run 2, .add [1] [3]⟩

/-- The hypotheses of `C111_written` on a patch of two sections. -/
example : ∃ (ss : List (Header × List Op)) (os : List Origin), PatchEnc (VAcc true) ss [128, 1, 1, 0x81, 5, 0, 1, 2, 0xC2, 6] ∧
    (∀ s ∈ ss, Consistent s.1 s.2) ∧ (∀ s ∈ ss, s.1.algo ≠ 1 ∧ s.1.algo ≠ 2 ∧ s.1.algo ≠ 3) ∧
    trace ((none : Option Bytes).map itself) (ss.flatMap (·.2)) = some os ∧ os[2]? = some (.written 6) := by
  obtain ⟨ss, h1, h2, h3, -, h5⟩ := two_sections
  obtain ⟨os, t1, t2⟩ := trace_of_meaning (reads_byte []) (d := (none : Option Bytes).map itself) h5
  refine ⟨ss, os, h1, h2, fun s hs => by rw [h3 s hs]; decide, t1, ?_⟩
  have hk : (os.map (Origin.byte []))[2]? = some 6 := by rw [← t2]; rfl
  rw [List.getElem?_map, Option.map_eq_some_iff] at hk
  obtain ⟨o, e1, e2⟩ := hk
  rcases o with c | i
  · simp only [Origin.byte] at e2
    rw [e1, e2]
  · have := traceFrom_sub (P := fun o => o.isSource = false) (fun _ => rfl) (by simp) (by simp) t1 _ (List.mem_of_getElem? e1)
    cases this

/-- The encoder, without and with a dictionary. -/
example : encode true refusingCodec .default none [1, 2, 3] ([] : Bytes) = (.ok (), [0, 1, 3, 0x83, 1, 2, 3]) := by
  decide +kernel

end Smdiff
