import Verif.Lemmas.Vcdiff
import Verif.SpecMerge
/-!
# C54, C55: converting VCDIFF
-/
namespace Smdiff
open Spec

namespace Vcdiff

/-- What is written when converting. -/
theorem convert_core (dbg dbgR : Bool) (cdc : Codec) {src : Option Bytes} (hsrc : ∀ b ∈ src, b.length < 2 ^ 63)
    {stream : List VMsg} {out : Bytes} (hm : vcdMeaning src stream = some out) (hout : out.length < 2 ^ 63)
    (hl : ¬ HasLongSequence stream) (w : Bytes) :
    ∃ q, convert dbg stream w = (.ok (), w ++ q) ∧
      applyPatch dbgR cdc src q .empty = (.ok (), ⟨out, out.length⟩) ∧
      ∃ ss, SectionsAt (VRead dbgR) cdc ss q [] ∧ Terminated ss ∧ InFormat .interleaved none ss ∧
        ∀ s ∈ ss, (∀ op ∈ s.2, Legal op) ∧ totalLen s.2 ≤ 16777215 := by
  obtain ⟨secs, w', h1, h2, h3, h4, h5, -⟩ := (convert_sim (dbg := dbg) hsrc hm hout w).2 hl
  have e : writeEach (sectionWriter dbg cdc none) .interleaved secs w = (.ok (), w') := by
    rw [← h3, ← writeEach_plain]
    rfl
  obtain ⟨q, k1, k2, ss, k3, k4, k5, k6⟩ := writeEach_apply dbg dbgR none .interleaved
    h2 (fun h => by rcases h with h | h <;> cases h) h4 e h5
  subst k1
  refine ⟨q, h1, k2, ss, k3, k4, k6, fun s hs => ?_⟩
  have : s.2 ∈ secs.map (·.1) := by rw [← k5]; exact List.mem_map_of_mem hs
  obtain ⟨t, ht, e⟩ := List.mem_map.1 this
  rw [← e]
  exact ⟨(h4 t ht).1.2.1, (h4 t ht).1.2.2.2.2.2⟩

end Vcdiff

open Vcdiff

/-! ## C54 -/

/-- **C54.** A well-formed VCDIFF instruction stream without long sequences is converted, by every build, to a patch
that, applied by any build, with the same source gives the file the stream denotes. -/
theorem C54_conversion_preserves (dbg dbgR : Bool) (cdc : Codec) (src : Option Bytes)
    (hsrc : ∀ b ∈ src, b.length < 2 ^ 63) (stream : List VMsg) (out : Bytes) (hm : vcdMeaning src stream = some out)
    (hout : out.length < 2 ^ 63) (hl : ¬ HasLongSequence stream) (w : Bytes) :
    ∃ q, convert dbg stream w = (.ok (), w ++ q) ∧ applyPatch dbgR cdc src q .empty = (.ok (), ⟨out, out.length⟩) := by
  obtain ⟨q, h1, h2, -⟩ := convert_core dbg dbgR cdc hsrc hm hout hl w
  exact ⟨q, h1, h2⟩

/-- **C54.** It consists of interleaved, uncompressed sections with legal operations, the last one marked as the
last. -/
theorem C54_conversion_format (dbg dbgR : Bool) (cdc : Codec) (src : Option Bytes)
    (hsrc : ∀ b ∈ src, b.length < 2 ^ 63) (stream : List VMsg) (out : Bytes) (hm : vcdMeaning src stream = some out)
    (hout : out.length < 2 ^ 63) (hl : ¬ HasLongSequence stream) (w : Bytes) :
    ∃ q ss, convert dbg stream w = (.ok (), w ++ q) ∧ SectionsAt (VRead dbgR) cdc ss q [] ∧ Terminated ss ∧
      InFormat .interleaved none ss ∧ ∀ s ∈ ss, ∀ op ∈ s.2, Legal op := by
  obtain ⟨q, h1, -, ss, h3, h4, h5, h6⟩ := convert_core dbg dbgR cdc hsrc hm hout hl w
  exact ⟨q, ss, h1, h3, h4, h5, fun s hs => (h6 s hs).1⟩

/-- **C69.** No section of it is larger than `2^24-1` bytes. -/
theorem C69_conversion_section_size (dbg dbgR : Bool) (cdc : Codec) (src : Option Bytes)
    (hsrc : ∀ b ∈ src, b.length < 2 ^ 63) (stream : List VMsg) (out : Bytes) (hm : vcdMeaning src stream = some out)
    (hout : out.length < 2 ^ 63) (hl : ¬ HasLongSequence stream) (w : Bytes) :
    ∃ q ss, convert dbg stream w = (.ok (), w ++ q) ∧ SectionsAt (VRead dbgR) cdc ss q [] ∧ Terminated ss ∧
      ∀ s ∈ ss, totalLen s.2 ≤ 16777215 := by
  obtain ⟨q, h1, -, ss, h3, h4, -, h6⟩ := convert_core dbg dbgR cdc hsrc hm hout hl w
  exact ⟨q, ss, h1, h3, h4, fun s hs => (h6 s hs).2⟩

/-- **C54.** An error of the VCDIFF parser behind any well-formed beginning (without long sequences) is reported. -/
theorem C54_parser_error (dbg : Bool) (src : Option Bytes) (hsrc : ∀ b ∈ src, b.length < 2 ^ 63) (stream : List VMsg)
    (out : Bytes) (hm : vcdMeaning src stream = some out) (hout : out.length < 2 ^ 63) (hl : ¬ HasLongSequence stream)
    (e : Err) (rest : List VMsg) (w : Bytes) : (convert dbg (stream ++ .fail e :: rest) w).1 = .err e := by
  have happ : ∀ (a b : List VMsg) (st : State),
      (msgs dbg st (a ++ b) : IOm Bytes State) = (msgs dbg st a >>= fun st => msgs dbg st b) := by
    intro a
    induction a with
    | nil => intro b st; rfl
    | cons m a ih =>
      intro b st
      funext w
      simp only [List.cons_append, msgs, ih, IOm.bind_run]
      rcases msg dbg st m w with ⟨_ | _ | _ | _, _⟩ <;> rfl
  have g0 : Good dbg w {} w [] :=
    ⟨⟨[], rfl, by simp, rfl, by simp [Follows]⟩, by simp, by simp [totalLen], by simp [addBytes], by simp [totalLen]⟩
  have h := msgs_sim (dbg := dbg) (w0 := w) hsrc stream (win := none) (w := w) (st := {}) (out := []) (ops := [])
    (why := False) ⟨rfl, rfl⟩ (.inl ⟨g0, id⟩) (fun _ => rfl) hm hout
  simp only [false_or] at h
  rcases h with ⟨st', w', ops', h1, -, -⟩ | ⟨-, hy⟩
  · unfold convert
    rw [happ, IOm.bind_err (e := e) (s' := w')]
    rw [IOm.bind_ok h1]
    rfl
  · exact absurd hy hl

/-- The first test of the crate: 'hello' becomes 'Hello! Hello!'. -/
def vcdHello : List VMsg :=
  [.windowSummary (some 1) (some 4) .source, .inst (.add 1 (.ok [72])) (some (.copy 4 0 .copyS)),
    .inst (.add 2 (.ok [33, 32])) (some (.copy 6 4 (.copyT 11))), .endOfWindow]

theorem vcdHello_meaning : vcdMeaning (some [104, 101, 108, 108, 111]) vcdHello
    = some [72, 101, 108, 108, 111, 33, 32, 72, 101, 108, 108, 111, 33] := by decide

example (dbg dbgR : Bool) (cdc : Codec) : ∃ q, convert dbg vcdHello ([] : Bytes) = (.ok (), [] ++ q) ∧
    applyPatch dbgR cdc (some [104, 101, 108, 108, 111]) q .empty
      = (.ok (), ⟨[72, 101, 108, 108, 111, 33, 32, 72, 101, 108, 108, 111, 33], 13⟩) :=
  C54_conversion_preserves dbg dbgR cdc _ (by simp) vcdHello _ vcdHello_meaning (by simp) (by decide) []

/-- The operations the test of the crate expects, behind today's header (which has an output size). -/
example : convert true vcdHello ([] : Bytes)
    = (.ok (), [0, 4, 13, 129, 72, 4, 2, 130, 33, 32, 70, 0]) := by decide +kernel

/-- Two windows, the second with a segment of the output of the first; a self-overlapping copy, and a run. -/
def vcdTwo : List VMsg :=
  [.windowSummary none none .neither, .inst (.add 3 (.ok [1, 2, 3, 9])) (some (.copy 7 1 (.copyQ 5))), .endOfWindow,
    .windowSummary (some 4) (some 3) .target, .inst (.run 100 7) none, .inst (.copy 2 1 .copyS) (some (.copy 2 101 (.copyT 105))),
    .endOfWindow]

theorem vcdTwo_meaning : vcdMeaning none vcdTwo
    = some ([1, 2, 3, 2, 3, 2, 3, 2] ++ List.replicate 100 7 ++ [2, 3, 7, 7]) := by decide +kernel

example (dbg dbgR : Bool) (cdc : Codec) : ∃ q, convert dbg vcdTwo ([] : Bytes) = (.ok (), [] ++ q) ∧
    applyPatch dbgR cdc none q .empty
      = (.ok (), ⟨[1, 2, 3, 2, 3, 2, 3, 2] ++ List.replicate 100 7 ++ [2, 3, 7, 7], 112⟩) :=
  C54_conversion_preserves dbg dbgR cdc none (by simp) vcdTwo _ vcdTwo_meaning (by simp) (by decide) []

example : (convert true (vcdHello ++ .fail .eof :: []) ([1] : Bytes)).1 = .err .eof :=
  C54_parser_error true _ (by simp) vcdHello _ vcdHello_meaning (by simp) (by decide) .eof [] [1]

/-! ## C55 -/

/-- **C55.** A well-formed stream is converted exactly if it has no self-overlapping copy with both period and length
above 65535; otherwise the conversion returns an error (never a wrong patch, and never a panic), in every build. -/
theorem C55_long_sequences (dbg : Bool) (src : Option Bytes) (hsrc : ∀ b ∈ src, b.length < 2 ^ 63) (stream : List VMsg)
    (out : Bytes) (hm : vcdMeaning src stream = some out) (hout : out.length < 2 ^ 63) (w : Bytes) :
    (convert dbg stream w).1 = if HasLongSequence stream then .err .invalidData else .ok () := by
  have h := convert_sim (dbg := dbg) hsrc hm hout w
  by_cases hl : HasLongSequence stream
  · obtain ⟨w', e⟩ := h.1 hl
    rw [e, if_pos hl]
  · obtain ⟨secs, w', e, -⟩ := h.2 hl
    rw [e, if_neg hl]

/-- 140000 times the same byte, as a run and a copy of it: well formed. -/
def vcdLong (n : UInt32) : List VMsg :=
  [.windowSummary none none .neither, .inst (.run n 7) none, .inst (.copy (n + n) 0 (.copyQ n)) none, .endOfWindow]

theorem vcdLong_meaning (n : UInt32) (h1 : 1 ≤ n.toNat) (h : n.toNat + n.toNat < 2 ^ 32) :
    vcdMeaning none (vcdLong n) = some (List.replicate n.toNat 7 ++ List.replicate n.toNat 7) := by
  have h2 : (n + n).toNat = n.toNat + n.toNat := by rw [UInt32.toNat_add]; omega
  unfold vcdMeaning vcdLong
  have e : vcdInst [] 0 (List.replicate n.toNat 7) (.copy (n + n) 0 (.copyQ n))
      = some (List.replicate n.toNat 7 ++ List.replicate n.toNat 7) := by
    simp only [vcdInst]
    rw [if_pos (by simp [CopyKindOk, h2]; omega), copyFromU_window _ _ _ _ _ (by simp), copyOut_range _ _ _ (by simp [copyLen])]
    simp [copyLen]
  simp only [vcdRun, vcdSegment, Option.bind_some, List.length_nil]
  rw [show vcdInst [] 0 [] (.run n 7) = some (List.replicate n.toNat 7) from by simp [vcdInst], Option.bind_some, e]
  rfl

/-- The expectation that every well-formed stream is converted is refuted by a run of 70000 bytes, copied. -/
example (dbg : Bool) : (vcdMeaning none (vcdLong 70000)).isSome ∧
    (convert dbg (vcdLong 70000) ([] : Bytes)).1 = .err .invalidData := by
  have hm := vcdLong_meaning 70000 (by simp) (by simp)
  refine ⟨by rw [hm]; rfl, ?_⟩
  rw [C55_long_sequences dbg none (by simp) _ _ hm
    (by rw [List.length_append, List.length_replicate]; decide) []]
  rw [if_pos (by decide)]

/-- It is converted if the period or the length is small. -/
example (dbg : Bool) : (convert dbg (vcdLong 65535) ([] : Bytes)).1 = .ok () := by
  have hm := vcdLong_meaning 65535 (by simp) (by simp)
  rw [C55_long_sequences dbg none (by simp) _ _ hm
    (by rw [List.length_append, List.length_replicate]; decide) []]
  rw [if_neg (by decide)]

/-- **C55.** A sequence with period 0 (which no well-formed stream has) is never finished: however many rounds the loop
is given, it does not end. -/
theorem C55_zero_period_diverges (dbg : Bool) (cs : CopySrc) (addr : UInt64) (rem : UInt32) (hr : rem ≠ 0) (w : Bytes) :
    ∀ (fuel : Nat) (st : State), st.curWinSize.toNat ≤ MAX_WIN_SIZE →
      seqLoop dbg cs addr 0 fuel st rem w = (.diverge, w) := by
  intro fuel
  induction fuel with
  | zero => intro st _; rw [seqLoop, if_neg hr]; rfl
  | succ f ih =>
    intro st hs
    have hs' : st.curWinSize.toNat ≤ 16777215 := hs
    have hmin : min rem 0 = 0 := UInt32.toNat_inj.1 (by rw [min32]; simp)
    have em := makeRoom_eq (dbg := dbg) (st := st) (c := 0) (by simp; omega) w
    rw [if_neg (by simp; omega)] at em
    obtain ⟨e1, e2⟩ := addU32_ok' (dbg := dbg) (a := st.curWinSize) (b := 0) (by simp; omega)
    obtain ⟨e3, e4⟩ := addU32_ok' (dbg := dbg) (a := st.numAddBytes) (b := 0)
      (by have := UInt32.toNat_lt st.numAddBytes; simpa using this)
    rw [seqLoop, if_neg hr]
    simp only [hmin]
    rw [IOm.bind_ok em]
    have ep : push dbg st (.copy cs addr (0 : UInt32).toUInt16) 0 0
        = .ok { st with curWin := st.curWin ++ [.copy cs addr (0 : UInt32).toUInt16], numAddBytes := st.numAddBytes + 0, curWinSize := st.curWinSize + 0 } := by
      unfold push
      simp only [e1, e3, Outcome.ok_bind]
      rfl
    rw [IOm.bind_ok (s' := w) (by rw [ep]; rfl)]
    rw [show rem - 0 = rem by simp]
    exact ih _ (by show (st.curWinSize + 0).toNat ≤ 16777215; rw [e2]; simpa using hs')

example : convert true [.windowSummary none none .neither, .inst (.add 1 (.ok [1])) (some (.copy 3 1 (.copyQ 3)))]
    ([] : Bytes) = (.diverge, []) := by decide

end Smdiff
