import Verif.Lemmas.Writing
import Verif.Lemmas.AnyInputs
import Verif.Props.Writers
import Verif.Props.Streams
/-!
# C84: any writer; C85: `encode` between any readers and any writer
-/
namespace Smdiff
open Spec

/-! ## C84 -/

/-- **C84.** Every function that writes to a caller's writer: what it writes, and how it ends, is the same for all
writers.  A writer that takes the bytes in pieces and is interrupted gets all of them; a writer that refuses a call
gets a true beginning, and its own error is returned at once (`WriteZero` if it took none of the bytes it was given). -/
theorem C84_any_writer (dbg : Bool) (cdc : Codec) (call : WriteCall) :
    ∃ r bs, (∀ w : Bytes, call.run dbg cdc w = (r, w ++ bs)) ∧
      ∀ (σ : Type) [Write σ] [LawfulWrite σ] (s : σ), Delivered (σ := σ) arrived Refused r bs s (call.run dbg cdc s) := by
  obtain ⟨cs, r, h⟩ := calls_run dbg cdc call
  refine ⟨r, cs.flatten, fun w => (h Bytes w).trans (bytes_runCalls cs r w), fun σ _ _ s => ?_⟩
  have e : call.run dbg cdc s = runCalls cs r s := h σ s
  rw [e]
  exact delivered_runCalls delivers_write cs r s

/-- **C84** (writers that never refuse).  If no call of the writer ever fails or takes nothing, then the function ends as
it does on a `Vec`, and the writer has got the same bytes. -/
theorem C84_patient_writer (dbg : Bool) (cdc : Codec) (call : WriteCall) {σ : Type} [Write σ] [LawfulWrite σ]
    (hp : ∀ (e : Err) (s : σ), ¬ Refused e s) (s : σ) (r : Outcome Unit) (bs : Bytes)
    (h : call.run dbg cdc ([] : Bytes) = (r, bs)) :
    (call.run dbg cdc s).1 = r ∧ arrived (call.run dbg cdc s).2 = arrived s ++ bs := by
  obtain ⟨r', bs', h1, h2⟩ := C84_any_writer dbg cdc call
  rw [h1] at h
  simp only [List.nil_append, Prod.mk.injEq] at h
  obtain ⟨rfl, rfl⟩ := h
  rcases h2 σ s with h | ⟨e, n, -, -, -, h⟩
  · exact h
  · exact absurd h (hp _ _)

/-- **C84** (buffered writers).  With a `BufWriter` of any capacity in between, the same holds of the bytes that have
arrived together with those in the buffer: nothing is lost, doubled or swapped, and an error is an error of the inner
writer. -/
theorem C84_buffered_writer (dbg : Bool) (cdc : Codec) (call : WriteCall) :
    ∃ r bs, (∀ w : Bytes, call.run dbg cdc w = (r, w ++ bs)) ∧
      ∀ (σ : Type) [Write σ] [LawfulWrite σ] (s : BufWriter σ),
        Delivered (σ := BufWriter σ) (fun s => arrived s.inner ++ s.buf) (fun e s => Refused e s.inner) r bs s
          (call.run dbg cdc s) := by
  obtain ⟨cs, r, h⟩ := calls_run dbg cdc call
  refine ⟨r, cs.flatten, fun w => (h Bytes w).trans (bytes_runCalls cs r w), fun σ _ _ s => ?_⟩
  have e : call.run dbg cdc s = runCalls cs r s := h (BufWriter σ) s
  rw [e]
  exact delivered_runCalls delivers_buf cs r s

/-- **C84** (flushing).  `flush` hands over what is in the buffer; if it fails, the inner writer has got a true beginning of
it and the rest is still there. -/
theorem C84_flush {σ : Type} [Write σ] [LawfulWrite σ] (s : BufWriter σ) :
    (∃ s', BufWriter.flush s = (.ok (), s') ∧ arrived s'.inner = arrived s.inner ++ s.buf ∧ s'.buf = []) ∨
    ∃ e n s', n < s.buf.length ∧ BufWriter.flush s = (.err e, s') ∧ Refused e s'.inner ∧
      arrived s'.inner = arrived s.inner ++ s.buf.take n ∧ s'.buf = s.buf.drop n := by
  rcases flushBuf_cases s with ⟨i, e, h⟩ | ⟨e', i, n, hn, e, h3, h4⟩
  · exact .inl ⟨_, e, h, rfl⟩
  · exact .inr ⟨e', n, _, hn, e, h4, h3, rfl⟩

/-- **C84** (success, then a flush).  So a function that ended well, followed by a flush that ended well, has written
everything. -/
theorem C84_written_and_flushed (dbg : Bool) (cdc : Codec) (call : WriteCall) {σ : Type} [Write σ] [LawfulWrite σ]
    (s s' s'' : BufWriter σ) (bs : Bytes) (h : call.run dbg cdc ([] : Bytes) = (.ok (), bs))
    (e : call.run dbg cdc s = (.ok (), s')) (ef : BufWriter.flush s' = (.ok (), s'')) :
    arrived s''.inner = arrived s.inner ++ s.buf ++ bs ∧ s''.buf = [] := by
  obtain ⟨r, bs', h1, h2⟩ := C84_buffered_writer dbg cdc call
  rw [h1] at h
  simp only [List.nil_append, Prod.mk.injEq] at h
  obtain ⟨rfl, rfl⟩ := h
  have hd := h2 σ s
  rw [e] at hd
  rcases hd with ⟨-, hd⟩ | ⟨_, _, -, hd, -⟩
  · simp only at hd
    rcases C84_flush s' with ⟨t, g1, g2, g3⟩ | ⟨_, _, t, -, g1, -⟩
    · rw [ef] at g1
      cases g1
      exact ⟨by rw [g2, hd], g3⟩
    · rw [ef] at g1
      cases g1
  · cases hd

/-- **C84** (success without a flush is not enough).  No function of the crates flushes: here `encode` reports success
although its buffered writer cannot write at all, and only the caller's `flush` shows it. -/
theorem C84_ok_before_written :
    ∃ s : BufWriter Pipe,
      encode true storedCodec .default (some [1, 2, 3]) [5, 6, 7, 8] (BufWriter.new (⟨[], [.fail .writeFail]⟩ : Pipe) 100)
        = (.ok (), s) ∧ s.inner.arrived = [] ∧ (BufWriter.flush s).1 = .err .writeFail := by
  refine ⟨⟨⟨[], [.fail .writeFail]⟩, [0, 1, 4, 132, 5, 6, 7, 8], 92⟩, ?_, rfl, ?_⟩
  · decide +kernel
  · decide +kernel

/-- **C84** (`encode`).  Where `encode` works at all, then on any writer either it reports success and what has arrived is
a patch that makes the target, or it returns the writer's error and what has arrived cannot be applied. -/
theorem C84_encode_all_or_nothing (dbgE dbgA : Bool) (cdc : Codec) (cfg : EncoderConfig) (dict : Option Bytes)
    (trgt w' : Bytes)
    (hc : (cfg.secComp = some .zstd ∨ cfg.secComp = some .brotli) → (Faithful cdc ∧ trgt ≠ []) ∧ Framed cdc)
    (hs : (dict.getD []).length < 2 ^ 63) (ht : trgt.length < 2 ^ 63)
    (e : encode dbgE cdc cfg dict trgt [] = (.ok (), w')) {σ : Type} [Write σ] [LawfulWrite σ] (s s' : σ)
    (h0 : arrived s = []) (r : Outcome Unit) (er : encode dbgE cdc cfg dict trgt s = (r, s')) :
    (r = .ok () ∧ applyPatch dbgA cdc dict (arrived s') .empty = (.ok (), ⟨trgt, trgt.length⟩)) ∨
    ∃ x, r = .err x ∧ Refused x s' ∧ (applyPatch dbgA cdc dict (arrived s') .empty).1 ≠ .ok () := by
  obtain ⟨r0, bs, h1, h2⟩ := C84_any_writer dbgE cdc (.encode cfg dict trgt)
  have e1 : encode dbgE cdc cfg dict trgt [] = _ := h1 []
  have e2 : Delivered arrived Refused r0 bs s (encode dbgE cdc cfg dict trgt s) := h2 σ s
  rw [e] at e1
  simp only [List.nil_append, Prod.mk.injEq] at e1
  obtain ⟨rfl, rfl⟩ := e1
  rw [er] at e2
  rcases e2 with ⟨g1, g2⟩ | ⟨x, n, hn, g1, g2, g3⟩
  · left
    simp only [h0, List.nil_append] at g1 g2
    obtain ⟨ops, bs, -, -, k1, k2, -⟩ := encode_spec dbgA (fun h => (hc h).1) hs ht e
    simp only [List.nil_append] at k1
    subst k1
    exact ⟨g1, by rw [g2]; exact k2⟩
  · right
    simp only [h0, List.nil_append] at g1 g2
    refine ⟨x, g1, g3, ?_⟩
    rw [g2]
    obtain ⟨k1, k2⟩ := C73_encoded_patch dbgE dbgA cdc cfg dict trgt [] w' (fun h => (hc h).1) hs ht
      (by simpa using e) n hn
    by_cases hu : cfg.secComp = some .zstd ∨ cfg.secComp = some .brotli
    · obtain ⟨r, c, e, hne, -⟩ := k2 (hc hu).2
      rw [e]; exact hne
    · obtain ⟨c, e, -⟩ := k1 hu
      rw [e]; simp

/-! ### Concrete cases -/

/-- A pipe that takes two bytes, is interrupted twice, takes one, and then everything. -/
example : encode true storedCodec .default (some [1, 2, 3]) [5, 6, 7, 8]
    (⟨[9], [.room 2, .interrupted, .interrupted, .room 1]⟩ : Pipe) = (.ok (), ⟨[9, 0, 1, 4, 132, 5, 6, 7, 8], []⟩) := by
  decide +kernel

/-- A pipe that has no room for a byte when it is asked for the fifth time. -/
example : encode true storedCodec .default (some [1, 2, 3]) [5, 6, 7, 8]
    (⟨[], [.room 1, .room 1, .room 1, .interrupted, .room 1, .room 2, .room 0]⟩ : Pipe)
      = (.err .writeZero, ⟨[0, 1, 4, 132, 5, 6], []⟩) := by
  decide +kernel

/-- A small buffer in front of a pipe that fails. -/
example : encode true storedCodec .default (some [1, 2, 3]) [5, 6, 7, 8]
    (BufWriter.new (⟨[], [.room 1, .fail .library]⟩ : Pipe) 2) = (.err .library, ⟨⟨[0], []⟩, [1], 1⟩) := by
  decide +kernel

/-- Writers that never refuse exist: a pipe's type has states that refuse, so here is another one, which takes bytes
one at a time. -/
structure Drip where
  got : Bytes

instance : Write Drip := ⟨fun bs s => (.took (min 1 bs.length), ⟨s.got ++ bs.take 1⟩), fun _ => 0⟩

instance : LawfulWrite Drip where
  arrived := Drip.got
  took bs s s' n h := by
    simp only [Write.write, Prod.mk.injEq, WriteRes.took.injEq] at h
    obtain ⟨rfl, rfl⟩ := h
    exact ⟨Nat.min_le_right _ _, by rw [← List.take_eq_take_min]⟩
  again bs s s' h := by simp [Write.write] at h
  failed bs s s' e h := by simp [Write.write] at h

theorem drip_patient (e : Err) (s : Drip) : ¬ Refused e s := by
  rintro ⟨b, bs, t, h | ⟨-, h⟩⟩
  · simp [Write.write] at h
  · simp only [Write.write, Prod.mk.injEq, WriteRes.took.injEq, List.length_cons] at h
    omega

example (call : WriteCall) (dbg : Bool) (cdc : Codec) (s : Drip) :
    (call.run dbg cdc s).1 = (call.run dbg cdc ([] : Bytes)).1 :=
  (C84_patient_writer dbg cdc call drip_patient s _ _ rfl).1

/-! ## C85 -/

section
variable {ρ τ ω : Type} [Read ρ] [LawfulRead ρ] [LawfulEnd ρ] [Read τ] [LawfulRead τ] [LawfulEnd τ] [Writer ω]

/-- **C85** On readers that end with `Ok(0)`, however they deliver their bytes, `encode` does to its writer what it does with
the bytes they hold. -/
theorem C85_any_reader (sizes : Nat → Nat) (dbg : Bool) (cdc : Codec) (cfg : EncoderConfig) (dict : Option ρ) (output : τ)
    (w : ω) (hd : ∀ r ∈ dict, fault r = none) (ho : fault output = none) :
    (On.encode sizes dbg cdc cfg ⟨dict, output, w⟩).1 = (encode dbg cdc cfg (dict.map content) (content output) w).1 ∧
    (On.encode sizes dbg cdc cfg ⟨dict, output, w⟩).2.writer
      = (encode dbg cdc cfg (dict.map content) (content output) w).2 := by
  have e1 := readToEnd_eq sizes output
  rw [ho] at e1
  simp only at e1
  have em : ∀ b : Bytes, (some <$> Outcome.ok b) = Outcome.ok (some b) := fun _ => rfl
  cases dict with
  | none => simp only [On.encode, IOm.bind_run, On.Job.readDict, On.Job.readOutput, e1, On.Job.write, Option.map_none, and_self]
  | some r =>
    have e2 := readToEnd_eq sizes r
    rw [hd r rfl] at e2
    simp only at e2
    simp only [On.encode, IOm.bind_run, On.Job.readDict, On.Job.readOutput, e1, e2, em, On.Job.write, Option.map_some, and_self]

omit [LawfulRead τ] [LawfulEnd τ] in
/-- **C85** A dictionary that fails: its error is returned; the target has not been touched and nothing was written. -/
theorem C85_failing_dict (sizes : Nat → Nat) (dbg : Bool) (cdc : Codec) (cfg : EncoderConfig) (dict : ρ) (output : τ)
    (w : ω) (e : Err) (hd : fault dict = some e) :
    (On.encode sizes dbg cdc cfg ⟨some dict, output, w⟩).1 = .err e ∧
    (On.encode sizes dbg cdc cfg ⟨some dict, output, w⟩).2.output = output ∧
    (On.encode sizes dbg cdc cfg ⟨some dict, output, w⟩).2.writer = w := by
  have e2 := readToEnd_eq sizes dict
  rw [hd] at e2
  simp only at e2
  have em : (some <$> (Outcome.err e : Outcome Bytes)) = Outcome.err e := rfl
  simp only [On.encode, IOm.bind_run, On.Job.readDict, e2, em, and_self]

/-- **C85** A target that fails: its error is returned and nothing was written. -/
theorem C85_failing_target (sizes : Nat → Nat) (dbg : Bool) (cdc : Codec) (cfg : EncoderConfig) (dict : Option ρ) (output : τ)
    (w : ω) (e : Err) (hd : ∀ r ∈ dict, fault r = none) (ho : fault output = some e) :
    (On.encode sizes dbg cdc cfg ⟨dict, output, w⟩).1 = .err e ∧
    (On.encode sizes dbg cdc cfg ⟨dict, output, w⟩).2.writer = w := by
  have e1 := readToEnd_eq sizes output
  rw [ho] at e1
  simp only at e1
  have em : ∀ b : Bytes, (some <$> Outcome.ok b) = Outcome.ok (some b) := fun _ => rfl
  cases dict with
  | none => simp only [On.encode, IOm.bind_run, On.Job.readDict, On.Job.readOutput, e1, and_self]
  | some r =>
    have e2 := readToEnd_eq sizes r
    rw [hd r rfl] at e2
    simp only at e2
    simp only [On.encode, IOm.bind_run, On.Job.readDict, On.Job.readOutput, e1, e2, em, and_self]

end

/-- **C85** (the way from file to file).  Old and new file come from any readers, the patch goes through any writer, and
what has arrived there is read by any reader: if `encode` reports success, `apply_patch` makes the new file. -/
theorem C85_round_trip {ρ τ ω P : Type} [Read ρ] [LawfulRead ρ] [LawfulEnd ρ] [Read τ] [LawfulRead τ] [LawfulEnd τ]
    [Write ω] [LawfulWrite ω] [Read P] [LawfulRead P] (sizes : Nat → Nat) (dbgE dbgA : Bool) (cdc : Codec)
    (on : On.CodecOn (BufReader P)) (hf : Framed cdc) (hon : Follow on cdc) (cfg : EncoderConfig)
    (dict : Option ρ) (output : τ) (w : ω) (h0 : arrived w = [])
    (hc : (cfg.secComp = some .zstd ∨ cfg.secComp = some .brotli) → Faithful cdc ∧ content output ≠ [])
    (hs : ((dict.map content).getD []).length < 2 ^ 63) (ht : (content output).length < 2 ^ 63)
    (hd : ∀ r ∈ dict, fault r = none) (ho : fault output = none)
    (j : On.Job ρ τ ω) (e : On.encode sizes dbgE cdc cfg ⟨dict, output, w⟩ = (.ok (), j))
    (patch : P) (hp : content patch = arrived j.writer) :
    On.applyPatch dbgA on (dict.map content) patch Cursor.empty
      = (.ok (), ⟨content output, (content output).length⟩) := by
  obtain ⟨g1, g2⟩ := C85_any_reader sizes dbgE cdc cfg dict output w hd ho
  rw [e] at g1 g2
  simp only at g1 g2
  obtain ⟨r0, bs, h1, h2⟩ := C84_any_writer dbgE cdc (.encode cfg (dict.map content) (content output))
  have e1 : encode dbgE cdc cfg (dict.map content) (content output) [] = _ := h1 []
  have e2 : Delivered arrived Refused r0 bs w (encode dbgE cdc cfg (dict.map content) (content output) w) := h2 ω w
  rcases e2 with ⟨k1, k2⟩ | ⟨x, n, hn, k1, k2, k3⟩
  · rw [← g1] at k1
    subst k1
    rw [← g2, h0] at k2
    simp only [List.nil_append] at k2 e1
    refine C82_failure_behind dbgA on cdc hf hon _ patch _ _ ?_
    obtain ⟨q, q1, q2⟩ := C28_round_trip_compressed dbgE dbgA cdc cfg (dict.map content) (content output) [] bs hc hs ht e1
    rw [hp, k2, q1]
    exact q2
  · rw [← g1] at k1
    cases k1

/-- Slow readers and a slow pipe, and a reader of the patch that fails behind it. -/
example : On.applyPatch true (onReaders storedCodec) (some [1, 2, 3])
    (⟨[.interrupted, .chunk [0, 1, 4], .chunk [132, 5, 6, 7, 8], .fail .library]⟩ : Raw) Cursor.empty
      = (.ok (), ⟨[5, 6, 7, 8], 4⟩) := by
  refine C85_round_trip (ρ := Raw) (τ := BufReader Raw) (ω := Pipe) (fun n => n % 3) true true storedCodec _ stored_framed
    (onReaders_follow _) .default (some ⟨[.chunk [1], .interrupted, .chunk [2, 3]]⟩)
    (.new ⟨[.interrupted, .chunk [5, 6, 7], .chunk [8], .chunk [], .fail .eof]⟩)
    ⟨[], [.room 2, .interrupted, .room 1]⟩ rfl (fun h => by rcases h with h | h <;> cases h) (by decide) (by decide)
    (by rintro r ⟨⟩; rfl) (by rfl)
    ⟨some ⟨[]⟩, ⟨⟨[.fail .eof]⟩, []⟩, ⟨[0, 1, 4, 132, 5, 6, 7, 8], []⟩⟩ ?_ _ (by decide)
  decide +kernel

example : fault (⟨[.chunk [1], .interrupted, .chunk [2, 3], .fail .library]⟩ : Raw) = some .library := rfl

end Smdiff
