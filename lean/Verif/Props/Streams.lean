import Verif.Lemmas.IntoInner
import Verif.Props.Decoder
/-!
# C82, C83: patches out of any reader
-/
namespace Smdiff
open Spec

theorem consumes_sectionComp (dbg : Bool) {cdc : Codec} (hf : Framed cdc) : Consumes (readSectionComp dbg cdc) := by
  rintro s ⟨ops, sh⟩ rest h
  obtain ⟨hd, ⟨hb', s', rfl, ⟨_, _, b1, b2, b3, _, _, _, rfl⟩, hbody, _, _⟩, _, _⟩ := readSectionComp_inv h
  have : rest.length ≤ s'.length := by
    unfold BodyAt at hbody
    split at hbody
    · obtain ⟨_, pay, _, _, rfl, _⟩ := hbody; simp
    · split at hbody
      · obtain ⟨d, body, extra, e, hd, hl, _⟩ := hbody
        rw [← hl]
        exact (hf.1 _ _ body.length [] e (by rw [hd]; simp)).1
      · split at hbody
        · obtain ⟨d, body, extra, e, hd, hl, hc, _⟩ := hbody
          rw [← hl]
          exact (hf.2 _ _ body.length [] e (by rw [hd]; simp) hc).1
        · obtain ⟨body, rfl, _⟩ := hbody; simp
  simp
  omega

section
variable {P : Type} [Read P] [LawfulRead P]

theorem content_new (p : P) : content (BufReader.new p) = content p := rfl

theorem stop_new (p : P) : stop (BufReader.new p) = stop p := rfl

/-! ## C82 -/

/-- **C82** (readers that fail).  `apply_patch` on any reader and any sink: the sink is the same as for a reader that
holds the same bytes and ends there, and so is the outcome - or the reader's error is returned where there would have
been an error anyway. -/
theorem C82_failing_reader {τ : Type} [Device τ] (dbg : Bool) (on : On.CodecOn (BufReader P)) (cdc : Codec)
    (hf : Framed cdc) (hon : Follow on cdc) (src : Option Bytes) (patch : P) (sink : τ) :
    (On.applyPatch dbg on src patch sink).2 = (applyPatchOn dbg cdc src (content patch) sink).2 ∧
    Reported (stop patch) (On.applyPatch dbg on src patch sink).1 (applyPatchOn dbg cdc src (content patch) sink).1 := by
  have hs := LawfulRead.size_ge (BufReader.new patch)
  rw [content_new] at hs
  have e := applyLoopOn_fuel (consumes_sectionComp dbg hf) src ((content patch).length + 2) (.new (content patch)) 0
    sink (by omega) (fun _ => by simp [SectionIterator.new]) (Read.size (BufReader.new patch) - (content patch).length)
  obtain ⟨h1, h2⟩ := follows_loopOn (follows_sectionComp dbg hon) src (Read.size (BufReader.new patch) + 2)
    (BufReader.new patch) false 0 sink
  unfold applyPatchOn On.applyPatch
  rw [← e, show (content patch).length + 2 + (Read.size (BufReader.new patch) - (content patch).length)
    = Read.size (BufReader.new patch) + 2 by omega]
  exact ⟨h2, h1⟩

/-- **C82** (readers that work).  How a reader delivers the patch - in which pieces, with which interruptions - makes no
difference for `apply_patch`, on any sink. -/
theorem C82_any_reader {τ : Type} [Device τ] (dbg : Bool) (on : On.CodecOn (BufReader P)) (cdc : Codec)
    (hf : Framed cdc) (hon : Follow on cdc) (src : Option Bytes) (patch : P) (sink : τ) (hs : stop patch = .eof) :
    On.applyPatch dbg on src patch sink = applyPatchOn dbg cdc src (content patch) sink := by
  obtain ⟨h1, h2⟩ := C82_failing_reader dbg on cdc hf hon src patch sink
  rcases h2 with h2 | ⟨h2, -⟩
  · exact Prod.ext h2 h1
  · exact absurd hs h2

/-- **C82** (in-memory sinks).  The same for the model on byte lists. -/
theorem C82_any_reader_cursor (dbg : Bool) (on : On.CodecOn (BufReader P)) (cdc : Codec)
    (hf : Framed cdc) (hon : Follow on cdc) (src : Option Bytes) (patch : P) (sink : Cursor)
    (hs : stop patch = .eof) :
    On.applyPatch dbg on src patch sink = applyPatch dbg cdc src (content patch) sink := by
  rw [C82_any_reader dbg on cdc hf hon src patch sink hs, applyPatchOn_cursor]

/-- **C82** (a failure behind the patch).  What a reader would report behind the last section is never seen. -/
theorem C82_failure_behind (dbg : Bool) (on : On.CodecOn (BufReader P)) (cdc : Codec)
    (hf : Framed cdc) (hon : Follow on cdc) (src : Option Bytes) (patch : P) (sink c : Cursor)
    (h : applyPatch dbg cdc src (content patch) sink = (.ok (), c)) :
    On.applyPatch dbg on src patch sink = (.ok (), c) := by
  obtain ⟨h1, h2⟩ := C82_failing_reader dbg on cdc hf hon src patch sink
  rw [applyPatchOn_cursor, h] at h1 h2
  rcases h2 with h2 | ⟨-, -, e', h2⟩
  · exact Prod.ext h2 h1
  · cases h2

/-- **C82** (a failure in the middle).  If a reader fails after the first `n` bytes of a patch that can be applied and
needs no library, and a part of the patch is still missing then, `apply_patch` returns the reader's own error, and the
sink holds a beginning of the right file. -/
theorem C82_failure_inside (dbg : Bool) (on : On.CodecOn (BufReader P)) (cdc : Codec)
    (hf : Framed cdc) (hon : Follow on cdc) (src : Option Bytes) (patch : Bytes) (c : Cursor)
    (h : applyPatch dbg cdc src patch .empty = (.ok (), c)) :
    ∃ ss rest, SectionsAt (VRead dbg) cdc ss patch rest ∧ Terminated ss ∧ meaning src (ss.flatMap (·.2)) = some c.data ∧
      ((∀ s ∈ ss, s.1.algo ≠ 2 ∧ s.1.algo ≠ 3) → ∀ n (reader : P), content reader = patch.take n →
        n + rest.length < patch.length →
        ∃ c', On.applyPatch dbg on src reader Cursor.empty = (.err (stop reader), c') ∧ c'.data <+: c.data) := by
  rw [applyPatch_eq] at h
  rcases hx : applyLoop (readSectionComp dbg cdc) src (patch.length + 2) (.new patch) 0 .empty
    with ⟨r, rest, c'⟩
  rw [hx] at h
  simp only [Prod.mk.injEq] at h
  obtain ⟨rfl, rfl⟩ := h
  obtain ⟨ss, s', h1, h2, -⟩ := applyLoop_inv (out := []) (p := 0) hx
  obtain ⟨hm, rfl, he⟩ := h2 rfl
  obtain ⟨hs, g1, g2, g3, -, g5⟩ := sectionsAt_of_readSeq h1
  refine ⟨hs, s', g1, terminated_of_moreBits hm g3, by rw [meaning, flatMap_snd_eq g2]; exact he, ?_⟩
  intro ha n reader hr hn
  have hG : ∀ t ∈ ss, t.2.compressionAlgo ≠ 2 ∧ t.2.compressionAlgo ≠ 3 := by
    intro t ht
    have : (decide (t.2.format = .segregated), t.2.compressionAlgo.toNat)
        ∈ hs.map (fun h => (h.1.seg, h.1.algo)) := by rw [g5]; exact List.mem_map_of_mem ht
    obtain ⟨u, hu, e⟩ := List.mem_map.1 this
    have e2 := (Prod.mk.inj e).2
    have := ha u hu
    rw [e2] at this
    exact ⟨fun h => this.1 (by rw [h]; rfl), fun h => this.2 (by rw [h]; rfl)⟩
  rw [← List.take_append_drop n patch] at h1
  obtain ⟨k1, k2⟩ := C82_failing_reader dbg on cdc hf hon src reader Cursor.empty
  rw [applyPatchOn_cursor, hr] at k1 k2
  rcases applyPatch_cut dbg cdc hm h1 hG he with ⟨l1, -⟩ | ⟨c2, l1, l2⟩
  · simp at l1; omega
  · rw [l1] at k1 k2
    have h1' : ReadSeq (readSectionComp dbg cdc) ss (content (BufReader.new reader) ++ patch.drop n) s' := by
      rw [content_new, hr]; exact h1
    have key := loop_cut (rd := On.readSectionComp dbg on)
      (G := fun sh => sh.compressionAlgo ≠ 2 ∧ sh.compressionAlgo ≠ 3) (patch.drop n)
      (fun s ops sh r e g => sectionComp_cut (on := on) dbg e g.1 g.2) src
      (Read.size (BufReader.new reader) + 2) ss (BufReader.new reader) [] c'.data 0 s' hm h1' hG he
    have := reported_cases k2 rfl (a := ()) key
    exact ⟨c2, Prod.ext this k1, l2⟩

/-- **C82** (`read_section`).  Reading an uncompressed section from any reader gives exactly what the bytes give, with
the reader's own error where the bytes end; afterwards the reader holds the rest of the bytes. -/
theorem C82_read_section (dbg : Bool) (s : P) :
    (On.readSection dbg s).1 = orEnd (stop s) (readSection dbg (content s)).1 ∧
    ∀ a, (On.readSection dbg s).1 = .ok a →
      content (On.readSection dbg s).2 = (readSection dbg (content s)).2 ∧ stop (On.readSection dbg s).2 = stop s :=
  exactly_section dbg s

/-- **C82** (`read_section_header`, `read_op`, `read_ops_no_comp`).  The same for the parts. -/
theorem C82_read_parts (dbg : Bool) (s : P) (a : Addrs) (il : Bool) (h : SectionHeader) :
    (On.readSectionHeader dbg s).1 = orEnd (stop s) (readSectionHeader dbg (content s)).1 ∧
    (On.readOp dbg a il s).1 = orEnd (stop s) (readOp dbg a il (content s)).1 ∧
    (On.readOpsNoComp dbg h s).1 = orEnd (stop s) (readOpsNoComp dbg h (content s)).1 :=
  ⟨(exactly_header dbg s).1, (exactly_readOp dbg a il s).1, (exactly_ops dbg h s).1⟩

end

/-- Any library, on buffered readers. -/
def onReaders (cdc : Codec) : On.CodecOn (BufReader Raw) where
  zstdDecode s := (cdc.zstdDecode (content s)) >>= fun d => .ok ⟨d.data, d.stop, rest s d, d.close⟩
  brotliDecode s := (cdc.brotliDecode (content s)) >>= fun d => .ok ⟨d.data, d.stop, rest s d, d.close⟩
where
  rest (s : BufReader Raw) (d : Decompressor) (n : Nat) : BufReader Raw :=
    ⟨⟨if stop s = .eof then [] else [.fail (stop s)]⟩, d.left n⟩

theorem onReaders_follow (cdc : Codec) : Follow (onReaders cdc) cdc := by
  intro s
  have hr : ∀ d n, content (onReaders.rest s d n) = d.left n ∧ stop (onReaders.rest s d n) = stop s := by
    intro d n
    by_cases h : stop s = .eof
    · simp only [onReaders.rest, h, if_true]
      exact ⟨List.append_nil _, rfl⟩
    · simp only [onReaders.rest, h, if_false]
      exact ⟨List.append_nil _, rfl⟩
  constructor
  · simp only [onReaders]
    rcases cdc.zstdDecode (content s) with d | e | _ | _
    · exact .inl ⟨_, d, rfl, rfl, rfl, .inl rfl, fun n => ⟨(hr d n).1, (hr d n).2, .inl rfl⟩⟩
    · exact .inr (.inr (.inr ⟨e, e, rfl, rfl, .inl rfl⟩))
    · exact .inr (.inl ⟨rfl, rfl⟩)
    · exact .inr (.inr (.inl ⟨rfl, rfl⟩))
  · simp only [onReaders]
    rcases cdc.brotliDecode (content s) with d | e | _ | _
    · exact .inl ⟨_, d, rfl, rfl, rfl, .inl rfl, fun n => ⟨(hr d n).1, (hr d n).2, .inl rfl⟩⟩
    · exact .inr (.inr (.inr ⟨e, e, rfl, rfl, .inl rfl⟩))
    · exact .inr (.inl ⟨rfl, rfl⟩)
    · exact .inr (.inr (.inl ⟨rfl, rfl⟩))

/-- A reader that delivers the example patch in pieces, with interruptions, and then fails. -/
def slowDemo : Raw :=
  ⟨[.interrupted, .chunk (demoPatch.take 3), .interrupted, .interrupted, .chunk (demoPatch.drop 3), .fail .writeFail]⟩

example (dbg : Bool) : On.applyPatch dbg (onReaders storedCodec) (some [10, 11, 12, 13]) slowDemo Cursor.empty
    = (.ok (), ⟨[5, 6, 6, 11, 12, 13, 6, 11, 7, 8], 10⟩) :=
  C82_failure_behind dbg _ storedCodec stored_framed (onReaders_follow _) _ _ _ _ (demo_apply dbg _)

example : On.applyPatch true (onReaders storedCodec) (some [10, 11, 12, 13])
    (⟨[.chunk (demoPatch.take 12), .fail .library]⟩ : Raw) Cursor.empty
    = (.err .library, ⟨[5, 6, 6, 11, 12, 13], 6⟩) := by decide +kernel

example : content slowDemo = demoPatch ∧ stop slowDemo = .writeFail := by decide

/-! ## C83 -/

section
variable {P : Type} [Read P] [LawfulRead P]

theorem drains_of_readSeq (dbg : Bool) {ss : List (List Op × SectionHeader)} (hm : MoreBits ss) :
    ∀ {s : P} {rest : Bytes}, ReadSeq (readSection dbg) ss (content s) rest →
    ∃ it, Drains (On.Iter.nextWith (On.readSection dbg)) ⟨s, false⟩ ss it ∧ content it.source = rest ∧
      stop it.source = stop s := by
  induction hm with
  | last t hmore =>
    intro s rest hs
    cases hs with
    | cons ops sh _ _ s' _ hr hs' =>
      cases hs'
      obtain ⟨h1, h2⟩ := exactly_section dbg s
      rw [hr] at h1 h2
      obtain ⟨g1, g2⟩ := h2 _ h1
      have hm : sh.moreSections = false := hmore
      rcases hx : On.readSection dbg s with ⟨r, s1⟩
      rw [hx] at h1 g1 g2
      simp only [orEnd] at h1
      subst h1
      refine ⟨⟨s1, true⟩, .some _ ⟨s1, true⟩ _ _ _ ?_ (.none _ _ ?_), g1, g2⟩
      · simp [On.Iter.nextWith, hx, hm]
      · simp [On.Iter.nextWith]
  | more t ss hmore hm ih =>
    intro s rest hs
    cases hs with
    | cons ops sh _ _ s' _ hr hs' =>
      obtain ⟨h1, h2⟩ := exactly_section dbg s
      rw [hr] at h1 h2
      obtain ⟨g1, g2⟩ := h2 _ h1
      have hm : sh.moreSections = true := hmore
      rcases hx : On.readSection dbg s with ⟨r, s1⟩
      rw [hx] at h1 g1 g2
      simp only [orEnd] at h1 g1 g2
      subst h1
      rw [← g1] at hs'
      obtain ⟨it, k1, k2, k3⟩ := ih hs'
      refine ⟨it, .some _ ⟨s1, false⟩ _ _ _ ?_ k1, k2, by rw [k3, g2]⟩
      simp [On.Iter.nextWith, hx, hm]

/-- **C83** (plain iterator).  Out of any reader that holds a patch and anything behind it, the iterator of the
`smdiff-reader` crate delivers the sections of the patch and then `None`; `into_inner` gives the reader back directly
behind the patch. -/
theorem C83_into_inner (dbg : Bool) (ss : List (Header × List Op)) (bs rest : Bytes) (h : PatchEnc (VAcc dbg) ss bs)
    (hc : ∀ s ∈ ss, Consistent s.1 s.2) (reader : P) (hr : content reader = bs ++ rest) :
    ∃ secs it, Drains (On.Iter.nextWith (On.readSection dbg)) ⟨reader, false⟩ secs it ∧
      secs.map (·.1) = ss.map (·.2) ∧ content it.intoInner = rest ∧ stop it.intoInner = stop reader := by
  obtain ⟨h1, h2⟩ := readSeq_of_patch h hc rest
  rw [← hr] at h1
  obtain ⟨it, k1, k2, k3⟩ := drains_of_readSeq dbg h2 h1
  exact ⟨_, it, k1, by simp, k2, k3⟩

end

/-- **C83** (the decoder's iterator).  The iterator of the `smdiff-decoder` crate reads ahead: if the patch and what is
behind it come in one piece of at most 8192 bytes, nothing is left for the owner of the reader after the first call of
`next`, whatever that call gives. -/
theorem C83_decoder_reads_ahead (dbg : Bool) (on : On.CodecOn (BufReader Raw)) (bs : Bytes) (hb : bs ≠ [])
    (hl : bs.length ≤ 8192)
    (hz : ∀ s d n, s.inner = ⟨[]⟩ → on.zstdDecode s = .ok d → (d.left n).inner = ⟨[]⟩)
    (hbr : ∀ s d n, s.inner = ⟨[]⟩ → on.brotliDecode s = .ok d → (d.left n).inner = ⟨[]⟩) :
    (On.Iter.nextWith (On.readSectionComp dbg on) ⟨BufReader.new ⟨[.chunk bs]⟩, false⟩).2.intoInnerBuf = ⟨[]⟩ := by
  have key : Drained (On.readSectionComp dbg on (BufReader.new ⟨[.chunk bs]⟩)).2 := by
    have h1 := keeps_header_rest drained_read dbg _ (drained_first bs hb hl)
    unfold On.readSectionComp
    rw [IOm.bind_run]
    rcases hx : On.readSectionHeader dbg (BufReader.new (⟨[.chunk bs]⟩ : Raw)) with ⟨_ | _ | _ | _, s'⟩ <;>
      rw [hx] at h1
    · exact keeps_readOpsComp drained_read dbg hz hbr _ s' h1
    all_goals exact h1
  unfold On.Iter.nextWith
  simp only [Bool.false_eq_true, if_false]
  rcases hx : On.readSectionComp dbg on (BufReader.new (⟨[.chunk bs]⟩ : Raw)) with ⟨⟨_, _⟩ | _ | _ | _, s'⟩ <;>
    rw [hx] at key <;> exact key

/-- The example patch, followed by other data. -/
example : ∃ secs it, Drains (On.Iter.nextWith (On.readSection true)) ⟨(⟨[.chunk (demoPatch ++ [1, 2, 3])]⟩ : Raw), false⟩
    secs it ∧ secs.length = 2 ∧ content it.intoInner = [1, 2, 3] := by
  refine ⟨_, _, .some _ _ _ _ _ rfl (.some _ _ _ _ _ rfl (.none _ _ rfl)), rfl, ?_⟩
  decide +kernel

example : (On.Iter.nextWith (On.readSectionComp true (onReaders storedCodec))
    ⟨BufReader.new ⟨[.chunk (demoPatch ++ [1, 2, 3])]⟩, false⟩).2.intoInnerBuf = ⟨[]⟩ := by
  refine C83_decoder_reads_ahead true _ _ (by decide) (by decide) ?_ ?_
  · intro s d n hs hd
    simp only [onReaders] at hd
    obtain ⟨d', -, hd⟩ := Outcome.bind_eq_ok.1 hd
    cases hd
    have : stop s = .eof := by show eventEnd s.inner.events = _; rw [hs]; rfl
    simp [onReaders.rest, this]
  · intro s d n hs hd
    simp only [onReaders] at hd
    obtain ⟨d', -, hd⟩ := Outcome.bind_eq_ok.1 hd
    cases hd
    have : stop s = .eof := by show eventEnd s.inner.events = _; rw [hs]; rfl
    simp [onReaders.rest, this]

end Smdiff
