import Verif.Props.Origin
import Verif.Props.Bounds
import Verif.Props.Flow
/-!
# C109: a patch does not notice which source it is given

`Origin` (`written b` or `source i`), `Origin.byte` and `itself` are those of `SpecOrigin.lean`.
-/
namespace Smdiff
open Spec

/-- All places of the first file that are mentioned lie before `n`. -/
def Below (n : Nat) (os : List Origin) : Prop := ∀ i, Origin.source i ∈ os → i < n

theorem Below.append {n : Nat} {a b : List Origin} (ha : Below n a) (hb : Below n b) : Below n (a ++ b) := by
  intro i hi
  rcases List.mem_append.1 hi with h | h
  · exact ha i h
  · exact hb i h

theorem Below.sublist {n : Nat} {a b : List Origin} (hb : Below n b) (h : a.Sublist b) : Below n a :=
  fun i hi => hb i (h.subset hi)

theorem below_written {n : Nat} (bs : Bytes) : Below n (bs.map .written) := by
  intro i hi
  simp at hi

theorem below_itself {n : Nat} : Below n ((List.range n).map .source) := by
  intro i hi
  simpa using hi

/-- The effect of a call on a cursor whose bytes come from somewhere: the same for all contents of the first file. -/
structure Uniform {α : Type} (n : Nat) (run : (Origin → UInt8) → Cursor → Outcome α × Cursor) : Prop where
  all : ∀ (os : List Origin) (pos : Nat), Below n os → ∃ r os' pos', Below n os' ∧
    ∀ f, Reads f → run f ⟨os.map f, pos⟩ = (r, ⟨os'.map f, pos'⟩)

theorem map_written {f : Origin → UInt8} (hf : Reads f) (bs : Bytes) : (bs.map Origin.written).map f = bs := by
  rw [List.map_map]
  conv_rhs => rw [← List.map_id bs]
  exact List.map_congr_left fun b _ => hf b

/-- Writing bytes that come from somewhere. -/
theorem writeAll_from {n : Nat} {os ws : List Origin} (pos : Nat) (ho : Below n os) (hw : Below n ws) :
    ∃ os', Below n os' ∧ ∀ f, Reads f →
      Cursor.writeAll (ws.map f) ⟨os.map f, pos⟩ = (.ok (), ⟨os'.map f, pos + ws.length⟩) := by
  refine ⟨os.take pos ++ List.replicate (pos - os.length) (.written 0) ++ ws ++ os.drop (pos + ws.length), ?_, ?_⟩
  · refine ((Below.append ?_ ?_).append hw).append ?_
    · exact ho.sublist (List.take_sublist _ _)
    · intro i hi
      have := (List.mem_replicate.1 hi).2
      cases this
    · exact ho.sublist (List.drop_sublist _ _)
  · intro f hf
    simp [Cursor.writeAll, hf 0]

/-- Reading bytes that come from somewhere. -/
theorem readExact_from {n : Nat} {os : List Origin} (pos len : Nat) (ho : Below n os) :
    (∃ bs pos', Below n bs ∧ bs.length = len ∧
      ∀ f, Cursor.readExact len ⟨os.map f, pos⟩ = (.ok (bs.map f), ⟨os.map f, pos'⟩)) ∨
    (∃ pos', ∀ f : Origin → UInt8, Cursor.readExact len ⟨os.map f, pos⟩ = (.err .eof, ⟨os.map f, pos'⟩)) := by
  by_cases h : len ≤ os.length - pos
  · refine .inl ⟨(os.drop pos).take len, pos + len, ho.sublist ((List.take_sublist _ _).trans (List.drop_sublist _ _)),
      by simp; omega, fun f => ?_⟩
    simp [Cursor.readExact, h]
  · refine .inr ⟨os.length, fun f => ?_⟩
    simp [Cursor.readExact, h]

theorem applyOp_uniform (n : Nat) (op : Op) (pos : Nat) :
    Uniform n fun f => applyOp (some (((List.range n).map Origin.source).map f)) op pos := by
  refine ⟨fun os p ho => ?_⟩
  rcases op with ⟨b, len⟩ | ⟨_ | _, a, len⟩ | bs
  · have hw : Below n (List.replicate len.toNat (Origin.written b)) := by
      intro i hi
      cases (List.mem_replicate.1 hi).2
    obtain ⟨os', h1, h2⟩ := writeAll_from p ho hw
    refine ⟨.ok (pos + len.toNat), os', p + len.toNat, h1, fun f hf => ?_⟩
    have := h2 f hf
    simp only [List.map_replicate, hf b, List.length_replicate] at this
    rw [applyOp, IOm.bind_ok this]
    rfl
  · rcases readExact_from a.toNat len.toNat (below_itself (n := n)) with ⟨bs, p', h1, hl, h2⟩ | ⟨p', h2⟩
    · obtain ⟨os', g1, g2⟩ := writeAll_from p ho h1
      refine ⟨.ok (pos + len.toNat), os', p + bs.length, g1, fun f hf => ?_⟩
      have e : applyOp (some (((List.range n).map Origin.source).map f)) (.copy .dict a len) pos ⟨os.map f, p⟩ =
        ((do
          let bs ← IOm.lift (Cursor.readExact len.toNat ⟨((List.range n).map Origin.source).map f, a.toNat⟩).1
          Cursor.writeAll bs
          return pos + len.toNat : IOm Cursor Nat)) ⟨os.map f, p⟩ := rfl
      rw [e, h2 f, IOm.bind_ok (IOm.lift_run _ _), IOm.bind_ok (g2 f hf)]
      rfl
    · refine ⟨.err .eof, os, p, ho, fun f hf => ?_⟩
      have e : applyOp (some (((List.range n).map Origin.source).map f)) (.copy .dict a len) pos ⟨os.map f, p⟩ =
        ((do
          let bs ← IOm.lift (Cursor.readExact len.toNat ⟨((List.range n).map Origin.source).map f, a.toNat⟩).1
          Cursor.writeAll bs
          return pos + len.toNat : IOm Cursor Nat)) ⟨os.map f, p⟩ := rfl
      rw [e, h2 f, IOm.bind_err (IOm.lift_run _ _)]
  · rcases readExact_from a.toNat len.toNat ho with ⟨bs, p', h1, hl, h2⟩ | ⟨p', h2⟩
    · obtain ⟨os', g1, g2⟩ := writeAll_from pos ho h1
      refine ⟨.ok (pos + len.toNat), os', pos + bs.length, g1, fun f hf => ?_⟩
      rw [applyOp, IOm.bind_ok (Cursor.seekTo_run _ _), IOm.bind_ok (h2 f), IOm.bind_ok (Cursor.seekTo_run _ _),
        IOm.bind_ok (g2 f hf)]
      rfl
    · refine ⟨.err .eof, os, p', ho, fun f hf => ?_⟩
      rw [applyOp, IOm.bind_ok (Cursor.seekTo_run _ _), IOm.bind_err (h2 f)]
  · obtain ⟨os', h1, h2⟩ := writeAll_from p ho (below_written (n := n) bs)
    refine ⟨.ok (pos + bs.length), os', p + bs.length, h1, fun f hf => ?_⟩
    have := h2 f hf
    rw [map_written hf, List.length_map] at this
    rw [applyOp, IOm.bind_ok this]
    rfl

theorem applyOpsLoop_uniform (n : Nat) : ∀ (ops : List Op) (pos : Nat),
    Uniform n fun f => applyOpsLoop (some (((List.range n).map Origin.source).map f)) ops pos := by
  intro ops
  induction ops with
  | nil => exact fun pos => ⟨fun os p ho => ⟨.ok pos, os, p, ho, fun f _ => rfl⟩⟩
  | cons op ops ih =>
    intro pos
    refine ⟨fun os p ho => ?_⟩
    obtain ⟨r, os1, p1, h1, h2⟩ := (applyOp_uniform n op pos).all os p ho
    cases r with
    | ok q =>
      obtain ⟨r', os2, p2, g1, g2⟩ := (ih q).all os1 p1 h1
      exact ⟨r', os2, p2, g1, fun f hf => by simp only [applyOpsLoop]; rw [IOm.bind_ok (h2 f hf)]; exact g2 f hf⟩
    | err e => exact ⟨.err e, os1, p1, h1, fun f hf => by simp only [applyOpsLoop]; rw [IOm.bind_err (h2 f hf)]⟩
    | panic => exact ⟨.panic, os1, p1, h1, fun f hf => by simp only [applyOpsLoop]; rw [IOm.bind_panic (h2 f hf)]⟩
    | diverge => exact ⟨.diverge, os1, p1, h1, fun f hf => by simp only [applyOpsLoop]; rw [IOm.bind_diverge (h2 f hf)]⟩

theorem applyLoop_uniform (n : Nat) (rd : IOm Bytes (List Op × SectionHeader)) : ∀ (fuel : Nat) (it : SectionIterator)
    (pos : Nat), Uniform n fun f c =>
      ((applyLoop rd (some (((List.range n).map Origin.source).map f)) fuel it pos c).1,
       (applyLoop rd (some (((List.range n).map Origin.source).map f)) fuel it pos c).2.2) := by
  intro fuel
  induction fuel with
  | zero => exact fun it pos => ⟨fun os p ho => ⟨.diverge, os, p, ho, fun f _ => rfl⟩⟩
  | succ fuel ih =>
    intro it pos
    refine ⟨fun os p ho => ?_⟩
    simp only [applyLoop]
    rcases it.nextWith rd with ⟨_ | ⟨ops, hd⟩ | e | _ | _, it'⟩
    · exact ⟨.ok (), os, p, ho, fun f _ => rfl⟩
    · obtain ⟨r, os1, p1, h1, h2⟩ := (applyOpsLoop_uniform n ops pos).all os pos ho
      have h3 : ∀ f, Reads f → applyOps (some (((List.range n).map Origin.source).map f)) ops pos ⟨os.map f, p⟩ =
          (r, ⟨os1.map f, p1⟩) := fun f hf => by
        rw [applyOps, IOm.bind_ok (Cursor.seekTo_run _ _)]; exact h2 f hf
      cases r with
      | ok q =>
        obtain ⟨r', os2, p2, g1, g2⟩ := (ih it' q).all os1 p1 h1
        exact ⟨r', os2, p2, g1, fun f hf => by simp only [h3 f hf]; exact g2 f hf⟩
      | err e => exact ⟨.err e, os1, p1, h1, fun f hf => by simp only [h3 f hf]⟩
      | panic => exact ⟨.panic, os1, p1, h1, fun f hf => by simp only [h3 f hf]⟩
      | diverge => exact ⟨.diverge, os1, p1, h1, fun f hf => by simp only [h3 f hf]⟩
    · exact ⟨.err e, os, p, ho, fun f _ => rfl⟩
    · exact ⟨.panic, os, p, ho, fun f _ => rfl⟩
    · exact ⟨.diverge, os, p, ho, fun f _ => rfl⟩

/-- **C109** (a patch is a recipe).  For every patch - any bytes at all -, every sink and every length `n` there is one
outcome, one position and one list of origins (stored bytes and places below `n`) such that, whatever source of `n` bytes it
is given, `apply_patch` ends with this outcome and position and leaves in the sink what the list reads from that source.  So
nothing in a patch can notice that a source of the right length is the wrong one. -/
theorem C109_recipe (dbg : Bool) (cdc : Codec) (patch : Bytes) (sink : Cursor) (n : Nat) :
    ∃ (r : Outcome Unit) (os : List Origin) (pos : Nat), (∀ i, Origin.source i ∈ os → i < n) ∧
      ∀ src : Bytes, src.length = n →
        applyPatch dbg cdc (some src) patch sink = (r, ⟨os.map (Origin.byte src), pos⟩) := by
  obtain ⟨data, p⟩ := sink
  obtain ⟨r, os, pos, h1, h2⟩ := (applyLoop_uniform n (readSectionComp dbg cdc) (patch.length + 2) (.new patch) 0).all
    (data.map .written) p (below_written _)
  refine ⟨r, os, pos, h1, fun src hs => ?_⟩
  have := h2 (Origin.byte src) (reads_byte src)
  rw [map_written (reads_byte src)] at this
  have e := itself_byte src
  rw [itself, hs] at e
  rw [e] at this
  rw [applyPatch_eq]
  exact this

/-- A source of `n` bytes in which place `i` holds `b` and all others hold `c`. -/
def onlyAt (n i : Nat) (b c : UInt8) : Bytes := (List.range n).map fun k => if k = i then b else c

theorem onlyAt_byte {n i k : Nat} (b c : UInt8) (h : k < n) :
    Origin.byte (onlyAt n i b c) (.source k) = if k = i then b else c := by
  simp [Origin.byte, onlyAt, List.getD, h]

/-- **C109** (the recipe is unique).  Two lists of origins that read the same from every source of `n` bytes are the same. -/
theorem C109_recipe_unique (n : Nat) (os os' : List Origin) (h : ∀ i, Origin.source i ∈ os → i < n)
    (h' : ∀ i, Origin.source i ∈ os' → i < n)
    (he : ∀ src : Bytes, src.length = n → os.map (Origin.byte src) = os'.map (Origin.byte src)) : os = os' := by
  have len (b c : UInt8) (i : Nat) : (onlyAt n i b c).length = n := by simp [onlyAt]
  have hl : os.length = os'.length := by simpa using congrArg List.length (he _ (len 0 0 0))
  refine List.ext_getElem hl fun k h1 h2 => ?_
  have key (src : Bytes) (hs : src.length = n) : Origin.byte src os[k] = Origin.byte src os'[k] := by
    have := congrArg (fun l : Bytes => l[k]?) (he src hs)
    simpa [h1, h2] using this
  have b1 : ∀ i, os[k] = .source i → i < n := fun i e => h i (e ▸ List.getElem_mem h1)
  have b2 : ∀ i, os'[k] = .source i → i < n := fun i e => h' i (e ▸ List.getElem_mem h2)
  generalize os[k] = o at *
  generalize os'[k] = o' at *
  rcases o with b | i <;> rcases o' with b' | i'
  · have := key _ (len 0 0 0)
    simp only [Origin.byte] at this
    rw [this]
  · have := key _ (len (b + 1) (b + 1) 0)
    rw [onlyAt_byte _ _ (b2 _ rfl)] at this
    simp [Origin.byte] at this
  · have := key _ (len (b' + 1) (b' + 1) 0)
    rw [onlyAt_byte _ _ (b1 _ rfl)] at this
    simp [Origin.byte] at this
  · by_cases e : i = i'
    · rw [e]
    · have := key _ (len 1 0 i)
      rw [onlyAt_byte _ _ (b1 _ rfl), onlyAt_byte _ _ (b2 _ rfl)] at this
      simp [Ne.symm e] at this

/-- **C109** (no check).  Sources of the same length: the same outcome (the same error, even), the same position, as many
bytes in the sink. -/
theorem C109_no_check (dbg : Bool) (cdc : Codec) (patch : Bytes) (sink : Cursor) (src src' : Bytes)
    (h : src'.length = src.length) :
    (applyPatch dbg cdc (some src') patch sink).1 = (applyPatch dbg cdc (some src) patch sink).1 ∧
    (applyPatch dbg cdc (some src') patch sink).2.pos = (applyPatch dbg cdc (some src) patch sink).2.pos ∧
    (applyPatch dbg cdc (some src') patch sink).2.data.length = (applyPatch dbg cdc (some src) patch sink).2.data.length := by
  obtain ⟨r, os, pos, -, h2⟩ := C109_recipe dbg cdc patch sink src.length
  rw [h2 src rfl, h2 src' h]
  simp

/-- **C109** (what comes out with the wrong source).  If a patch applies to a source then it applies to every other source
that is at least as long, and what comes out is as long; wrong are those bytes that are taken from a place of the source
where the other one has another byte, and no others. -/
theorem C109_wrong_source (dbg : Bool) (cdc : Codec) (patch src out : Bytes) (pos : Nat)
    (h : applyPatch dbg cdc (some src) patch .empty = (.ok (), ⟨out, pos⟩)) :
    ∃ os : List Origin, os.map (Origin.byte src) = out ∧ (∀ i, Origin.source i ∈ os → i < src.length) ∧
      ∀ src' : Bytes, src.length ≤ src'.length → ∃ out',
        applyPatch dbg cdc (some src') patch .empty = (.ok (), ⟨out', pos⟩) ∧ out'.length = out.length ∧
        ∀ k : Nat, out'[k]? ≠ out[k]? ↔ ∃ i : Nat, os[k]? = some (Origin.source i) ∧ src'[i]? ≠ src[i]? := by
  obtain ⟨r, os, pos', h1, h2⟩ := C109_recipe dbg cdc patch .empty src.length
  have e := h2 src rfl
  rw [h] at e
  simp only [Prod.mk.injEq, Cursor.mk.injEq] at e
  obtain ⟨rfl, e, rfl⟩ := e
  refine ⟨os, e.symm, h1, fun src' hl => ⟨os.map (Origin.byte src'), ?_, by rw [e]; simp, fun k => ?_⟩⟩
  · have h3 := h2 (src'.take src.length) (by simp; omega)
    have h4 := C67_longer_dictionary dbg cdc _ (src'.drop src.length) _ _ _ h3
    rw [List.take_append_drop] at h4
    rw [h4]
    congr 2
    refine List.map_congr_left fun o ho => ?_
    rcases o with b | i
    · rfl
    · have := h1 i ho
      simp [Origin.byte, List.getD, this]
  · rw [e, List.getElem?_map, List.getElem?_map]
    rcases hk : os[k]? with _ | b | i
    · simp
    · simp [Origin.byte]
    · have hi := h1 i (List.mem_of_getElem? hk)
      have hi' : i < src'.length := by omega
      simp [Origin.byte, List.getD, hi, hi']

/-- **C109** (encoded patches).  A patch that was encoded from `src` to `trgt` applies, without any complaint, to every
source that is at least as long as `src`, and gives a file as long as `trgt`. -/
theorem C109_encoded (dbgE dbg : Bool) (cdc : Codec) (cfg : EncoderConfig) (src trgt w w' : Bytes)
    (hc : (cfg.secComp = some .zstd ∨ cfg.secComp = some .brotli) → Faithful cdc ∧ trgt ≠ [])
    (hs : src.length < 2 ^ 63) (ht : trgt.length < 2 ^ 63) (e : encode dbgE cdc cfg (some src) trgt w = (.ok (), w')) :
    ∃ (patch : Bytes) (os : List Origin), w' = w ++ patch ∧ os.map (Origin.byte src) = trgt ∧
      ∀ src' : Bytes, src.length ≤ src'.length → ∃ out,
        applyPatch dbg cdc (some src') patch .empty = (.ok (), ⟨out, trgt.length⟩) ∧ out.length = trgt.length ∧
        ∀ k : Nat, out[k]? ≠ trgt[k]? ↔ ∃ i : Nat, os[k]? = some (Origin.source i) ∧ src'[i]? ≠ src[i]? := by
  obtain ⟨patch, hw, ha⟩ := C28_round_trip_compressed dbgE dbg cdc cfg (some src) trgt w w' hc hs ht e
  obtain ⟨os, h1, -, h2⟩ := C109_wrong_source dbg cdc patch src trgt _ ha
  exact ⟨patch, os, hw, h1, h2⟩

/-- **C109** (workflows).  The same of every patch made with the tools (C108). -/
theorem C109_made (dbg : Bool) (cdc : Codec) (src p new : Bytes) (h : MadeWith cdc (some src) p new) (src' : Bytes)
    (hl : src.length ≤ src'.length) :
    ∃ out pos, applyPatch dbg cdc (some src') p .empty = (.ok (), ⟨out, pos⟩) ∧ out.length = new.length := by
  obtain ⟨pos, ha⟩ := C108_applies dbg cdc (some src) p new h
  obtain ⟨os, -, -, h2⟩ := C109_wrong_source dbg cdc p src new pos ha
  obtain ⟨out, h3, h4, -⟩ := h2 src' hl
  exact ⟨out, pos, h3, h4⟩

/-- **C109** (chains).  A chain of patches, too, goes through from any other first file of the same length, and the merged
patch gives from it what the chain gives. -/
theorem C109_chain (dbg : Bool) (cdc : Codec) (src src' : Bytes) (hl : src'.length = src.length) (hs : src.length < 2 ^ 63)
    (older : List Bytes) (terminal out : Bytes) (h : Chain dbg cdc (some src) (older ++ [terminal]) out)
    (hd : dbg = true → DictCopyOrNone dbg cdc terminal) :
    ∃ r out', mergeChain dbg cdc older terminal = .ok r ∧ Chain dbg cdc (some src') (older ++ [terminal]) out' ∧
      out'.length = out.length ∧ meaning (some src) r.ops = some out ∧ meaning (some src') r.ops = some out' := by
  have i0 : (some (itself src)).map (·.map (Origin.byte src)) = some src := by simp [itself_byte]
  have i1 : (some (itself src)).map (·.map (Origin.byte src')) = some src' := by
    have := itself_byte src'
    rw [itself, hl] at this
    simp [itself, this]
  rw [← i0] at h
  obtain ⟨os, -, h2, h3⟩ := chain_trace (reads_byte _) _ _ _ h
  have g := h3 _ (reads_byte src')
  rw [i1] at g
  rw [i0] at h
  obtain ⟨r, e, hm, -⟩ := C45_chain dbg cdc (some src) (by simpa using hs) older terminal _ h hd
  obtain ⟨r', e', hm', -⟩ := C45_chain dbg cdc (some src') (by simp [hl]; omega) older terminal _ g hd
  rw [e] at e'
  cases e'
  exact ⟨r, _, e, g, by rw [h2]; simp, hm, hm'⟩

/-! Cases that meet the hypotheses.  The demonstration patch copies the places 1, 2 and 3 of a source of four bytes; a source
of three bytes gives an error, whatever it holds. -/

theorem demo_any (dbg : Bool) (cdc : Codec) (a b c d : UInt8) :
    applyPatch dbg cdc (some [a, b, c, d]) demoPatch .empty = (.ok (), ⟨[5, 6, 6, b, c, d, 6, b, 7, 8], 10⟩) := by
  obtain ⟨h, hm, h1⟩ : ∃ h, h.moreSections = true ∧
      readSectionComp dbg cdc demoPatch = (.ok ([.add [5], .run 6 2, .copy .dict 1 3], h), demoPatch.drop 9) := by
    cases dbg
    · exact ⟨_, rfl, rfl⟩
    · exact ⟨_, rfl, rfl⟩
  obtain ⟨h', hm', h2⟩ : ∃ h, h.moreSections = false ∧
      readSectionComp dbg cdc (demoPatch.drop 9) = (.ok ([.copy .output 2 2, .add [7, 8]], h), []) := by
    cases dbg
    · exact ⟨_, rfl, rfl⟩
    · exact ⟨_, rfl, rfl⟩
  rw [applyPatch_eq]
  simp [applyLoop, SectionIterator.nextWith, SectionIterator.new, h1, h2, hm, hm', applyOps, applyOpsLoop, applyOp, Cursor.readExact, Cursor.writeAll,
    IOm.bind_run, Cursor.empty]
  exact ⟨rfl, rfl⟩

/-- The recipe of the demonstration patch. -/
example (dbg : Bool) (cdc : Codec) (os : List Origin) (h : ∀ i, Origin.source i ∈ os → i < 4)
    (he : ∀ src : Bytes, src.length = 4 → ∃ pos, applyPatch dbg cdc (some src) demoPatch .empty =
      (.ok (), ⟨os.map (Origin.byte src), pos⟩)) :
    os = [.written 5, .written 6, .written 6, .source 1, .source 2, .source 3, .written 6, .source 1, .written 7,
      .written 8] := by
  refine C109_recipe_unique 4 _ _ h (by simp) fun src hs => ?_
  obtain ⟨pos, e⟩ := he src hs
  rcases src with _ | ⟨a, _ | ⟨b, _ | ⟨c, _ | ⟨d, _ | ⟨x, l⟩⟩⟩⟩⟩ <;> simp at hs
  rw [demo_any] at e
  simp only [Prod.mk.injEq, Cursor.mk.injEq, true_and] at e
  rw [← e.1]
  rfl

example (dbg : Bool) (cdc : Codec) (src : Bytes) (h : src.length = 3) :
    (applyPatch dbg cdc (some src) demoPatch .empty).1 = .err .eof := by
  rw [(C109_no_check dbg cdc demoPatch .empty [0, 0, 0] src h).1]
  cases dbg <;> rfl

example (cdc : Codec) (dbg : Bool) (a b c d e : UInt8) : ∃ out : Bytes,
    applyPatch dbg cdc (some [a, b, c, d, e]) demoPatch .empty = (.ok (), ⟨out, 10⟩) ∧ out.length = 10 := by
  obtain ⟨os, -, -, h⟩ := C109_wrong_source dbg cdc demoPatch _ _ _ (demo_apply dbg cdc)
  obtain ⟨out, h1, h2, -⟩ := h [a, b, c, d, e] (by simp)
  exact ⟨out, h1, h2⟩

example (src' : Bytes) (h : src'.length = mergeA.length) : ∃ r out, mergeChain true storedCodec [mergeP1] mergeP2 = .ok r ∧
    Chain true storedCodec (some src') [mergeP1, mergeP2] out ∧ out.length = 7 ∧ meaning (some src') r.ops = some out := by
  obtain ⟨r, out, h1, h2, h3, -, h4⟩ := C109_chain true storedCodec mergeA src' h (by decide) [mergeP1] mergeP2 _
    merge_demo_chain fun _ => merge_demo_dict
  exact ⟨r, out, h1, h2, h3, h4⟩

end Smdiff
