import Verif.SpecWriting
import Verif.Lemmas.Builds
/-!
# Helper lemmas: the tools make a sequence of `write_all` calls that does not depend on the writer
-/
namespace Smdiff
open Spec

/-- Write the pieces, then end with `r`. -/
def runCalls {σ α : Type} [Writer σ] : List Bytes → Outcome α → IOm σ α
  | [], r => IOm.lift r
  | c :: cs, r => Writer.writeAll c >>= fun _ => runCalls cs r

/-- The program writes the same pieces, and ends in the same way, whatever the writer - as long as that works. -/
def Calls {α : Type} (p : (σ : Type) → [Writer σ] → IOm σ α) : Prop :=
  ∃ cs r, ∀ (σ : Type) [Writer σ] (s : σ), p σ s = runCalls cs r s

theorem runCalls_bind {σ α β : Type} [Writer σ] (cs : List Bytes) (r : Outcome α) (f : α → IOm σ β) (s : σ) :
    (runCalls cs r >>= f) s = match (runCalls cs (.ok ()) s : Outcome Unit × σ) with
      | (.ok _, s) => (IOm.lift r >>= f) s
      | (.err e, s) => (.err e, s)
      | (.panic, s) => (.panic, s)
      | (.diverge, s) => (.diverge, s) := by
  induction cs generalizing s with
  | nil => rfl
  | cons c cs ih =>
    simp only [runCalls, IOm.bind_run] at ih ⊢
    rcases (Writer.writeAll c : IOm σ Unit) s with ⟨_ | _ | _ | _, s'⟩
    · exact ih s'
    all_goals rfl

theorem runCalls_append {σ α : Type} [Writer σ] (cs cs' : List Bytes) (r : Outcome α) (s : σ) :
    runCalls (cs ++ cs') r s = match (runCalls cs (.ok ()) s : Outcome Unit × σ) with
      | (.ok _, s) => runCalls cs' r s
      | (.err e, s) => (.err e, s)
      | (.panic, s) => (.panic, s)
      | (.diverge, s) => (.diverge, s) := by
  induction cs generalizing s with
  | nil => rfl
  | cons c cs ih =>
    simp only [runCalls, List.cons_append, IOm.bind_run] at ih ⊢
    rcases (Writer.writeAll c : IOm σ Unit) s with ⟨_ | _ | _ | _, s'⟩
    · exact ih s'
    all_goals rfl

theorem runCalls_end {σ α : Type} [Writer σ] (cs : List Bytes) (r : Outcome α) (s : σ) :
    runCalls cs r s = match (runCalls cs (.ok ()) s : Outcome Unit × σ) with
      | (.ok _, s) => (r, s)
      | (.err e, s) => (.err e, s)
      | (.panic, s) => (.panic, s)
      | (.diverge, s) => (.diverge, s) := by
  have h := runCalls_append cs [] r s
  rw [List.append_nil] at h
  exact h

theorem calls_lift {α : Type} (o : Outcome α) : Calls (fun _ _ => IOm.lift o) := ⟨[], o, fun _ _ _ => rfl⟩

theorem calls_pure {α : Type} (a : α) : Calls (fun _ _ => pure a) := ⟨[], .ok a, fun _ _ _ => rfl⟩

theorem calls_throw {α : Type} (e : Err) : Calls (fun _ _ => (IOm.throw e : IOm _ α)) := ⟨[], .err e, fun _ _ _ => rfl⟩

theorem calls_writeAll (bs : Bytes) : Calls (fun _ _ => Writer.writeAll bs) := by
  refine ⟨[bs], .ok (), fun σ _ s => ?_⟩
  simp only [runCalls, IOm.bind_run]
  rcases (Writer.writeAll bs : IOm σ Unit) s with ⟨_ | _ | _ | _, s'⟩ <;> rfl

theorem calls_bind {α β : Type} {p : (σ : Type) → [Writer σ] → IOm σ α} {q : α → (σ : Type) → [Writer σ] → IOm σ β}
    (h : Calls p) (hq : ∀ a, Calls (q a)) : Calls (fun σ _ => p σ >>= fun a => q a σ) := by
  obtain ⟨cs, r, h⟩ := h
  have e : ∀ (σ : Type) [Writer σ] (s : σ), (p σ >>= fun a => q a σ) s = (runCalls cs r >>= fun a => q a σ) s := by
    intro σ _ s
    rw [IOm.bind_run, IOm.bind_run, h]
  cases r with
  | ok a =>
    obtain ⟨cs', r', h'⟩ := hq a
    refine ⟨cs ++ cs', r', fun σ _ s => ?_⟩
    refine (e σ s).trans ?_
    rw [runCalls_bind, runCalls_append]
    rcases (runCalls cs (.ok ()) s : Outcome Unit × σ) with ⟨_ | _ | _ | _, s'⟩
    · exact h' σ s'
    all_goals rfl
  | err x =>
    refine ⟨cs, .err x, fun σ _ s => ?_⟩
    refine (e σ s).trans ?_
    rw [runCalls_bind, runCalls_end cs ((.err x) : Outcome β)]
    rcases (runCalls cs (.ok ()) s : Outcome Unit × σ) with ⟨_ | _ | _ | _, s'⟩ <;> rfl
  | panic =>
    refine ⟨cs, .panic, fun σ _ s => ?_⟩
    refine (e σ s).trans ?_
    rw [runCalls_bind, runCalls_end cs (.panic : Outcome β)]
    rcases (runCalls cs (.ok ()) s : Outcome Unit × σ) with ⟨_ | _ | _ | _, s'⟩ <;> rfl
  | diverge =>
    refine ⟨cs, .diverge, fun σ _ s => ?_⟩
    refine (e σ s).trans ?_
    rw [runCalls_bind, runCalls_end cs (.diverge : Outcome β)]
    rcases (runCalls cs (.ok ()) s : Outcome Unit × σ) with ⟨_ | _ | _ | _, s'⟩ <;> rfl

theorem calls_ite {α : Type} {c : Prop} [Decidable c] {p q : (σ : Type) → [Writer σ] → IOm σ α}
    (h : Calls p) (h' : Calls q) : Calls (fun σ _ => if c then p σ else q σ) := by
  split
  · exact h
  · exact h'

/-! ## The writing functions -/

theorem calls_writeSectionHeader (dbg : Bool) (h : SectionHeader) : Calls (fun _ _ => writeSectionHeader dbg h) := by
  refine calls_bind (calls_writeAll _) fun _ => calls_bind (calls_writeAll _) fun _ => ?_
  split
  · exact calls_bind (calls_writeAll _) fun _ => calls_bind (calls_lift _) fun _ => calls_writeAll _
  · exact calls_bind (calls_pure _) fun _ => calls_writeAll _

theorem calls_writeOpByteAndSize (op : Op) : Calls (fun _ _ => writeOpByteAndSize op) := by
  refine calls_bind (calls_lift _) fun _ => ?_
  split
  · exact calls_writeAll _
  · exact calls_bind (calls_lift _) fun _ => calls_bind (calls_writeAll _) fun _ => calls_writeAll _
  · exact calls_bind (calls_lift _) fun _ => calls_bind (calls_writeAll _) fun _ => calls_writeAll _

theorem calls_writeOpAddtl (dbg : Bool) (op : Op) (a : Addrs) : Calls (fun _ _ => writeOpAddtl dbg op a) := by
  rcases op with _ | ⟨_ | _, _, _⟩ | _
  · exact calls_bind (calls_writeAll _) fun _ => calls_pure _
  · exact calls_bind (calls_lift _) fun _ => calls_bind (calls_writeAll _) fun _ => calls_pure _
  · exact calls_bind (calls_lift _) fun _ => calls_bind (calls_writeAll _) fun _ => calls_pure _
  · exact calls_bind (calls_writeAll _) fun _ => calls_pure _

theorem calls_writeOpStep (dbg : Bool) (fmt : Format) (acc : WriteAcc) (op : Op) :
    Calls (fun _ _ => writeOpStep dbg fmt acc op) := by
  unfold writeOpStep
  simp only
  refine calls_bind (calls_writeOpByteAndSize op) fun _ => ?_
  split
  · exact calls_bind (calls_writeOpAddtl _ _ _) fun _ => calls_pure _
  · exact calls_pure _
  · exact calls_bind (calls_writeOpAddtl _ _ _) fun _ => calls_pure _

theorem calls_writeOpsLoop (dbg : Bool) (fmt : Format) (ops : List Op) : ∀ acc,
    Calls (fun _ _ => writeOpsLoop dbg fmt ops acc) := by
  induction ops with
  | nil => intro acc; exact calls_pure _
  | cons op ops ih => intro acc; exact calls_bind (calls_writeOpStep _ _ _ _) fun _ => ih _

theorem calls_writeSlices (ss : List Bytes) : Calls (fun _ _ => writeSlices ss) := by
  induction ss with
  | nil => exact calls_pure _
  | cons s ss ih => exact calls_bind (calls_writeAll _) fun _ => ih

theorem calls_writeOps (dbg : Bool) (ops : List Op) (h : SectionHeader) : Calls (fun _ _ => writeOps dbg ops h) := by
  unfold writeOps
  split
  · exact calls_throw _
  split
  · exact calls_throw _
  refine calls_bind (calls_writeOpsLoop _ _ _ _) fun acc => ?_
  split
  · refine calls_bind (calls_writeSlices _) fun _ => ?_
    split
    · exact calls_throw _
    split
    · exact calls_throw _
    · exact calls_pure _
  · split
    · exact calls_throw _
    · exact calls_pure _

theorem calls_writeSection (dbg : Bool) (s : List Op × SectionHeader) : Calls (fun _ _ => writeSection dbg s) :=
  calls_bind (calls_writeSectionHeader _ _) fun _ => calls_writeOps _ _ _

theorem calls_encodeSections (dbg : Bool) {sw : (σ : Type) → [Writer σ] → List Op × SectionHeader → IOm σ Unit}
    (h : ∀ s, Calls (fun σ _ => sw σ s)) (fmt : Format)
    (src trgt : Bytes) : ∀ (ss : List (List Op × SectionHeader)) (o : Nat),
    Calls (fun σ _ => encodeSections dbg (sw σ) fmt src trgt o ss) := by
  intro ss
  induction ss with
  | nil => intro o; exact calls_pure _
  | cons s ss ih =>
    intro o
    have key := fun (_ : Unit) => calls_bind (h (s.1, { s.2 with format := fmt }))
      fun _ => ih (o + s.2.outputSize.toNat)
    simp only [encodeSections]
    cases dbg
    · simp only [Bool.false_eq_true, if_false]
      exact key ()
    · simp only [if_true]
      exact calls_bind (calls_lift _) fun _ => calls_bind (calls_lift _) key

theorem calls_encodeWith (dbg : Bool) {sw : (σ : Type) → [Writer σ] → List Op × SectionHeader → IOm σ Unit}
    (h : ∀ s, Calls (fun σ _ => sw σ s)) (cfg : EncoderConfig) (dict : Option Bytes) (trgt : Bytes) :
    Calls (fun σ _ => encodeWith dbg (sw σ) cfg dict trgt) :=
  calls_bind (calls_lift _) fun _ => calls_bind (calls_lift _) fun _ => calls_encodeSections dbg h _ _ _ _ _

theorem calls_encodePlain (dbg : Bool) (cfg : EncoderConfig) (dict : Option Bytes) (trgt : Bytes) :
    Calls (fun _ _ => encodePlain dbg cfg dict trgt) :=
  calls_encodeWith dbg (sw := fun _ _ => writeSection dbg) (calls_writeSection dbg) cfg dict trgt

theorem calls_writeCompressed (r : Outcome Bytes) : Calls (fun _ _ => writeCompressed r) :=
  calls_bind (calls_lift _) fun _ => calls_writeAll _

theorem calls_sectionWriter (dbg : Bool) (cdc : Codec) (secComp : Option SecComp) (s : List Op × SectionHeader) :
    Calls (fun _ _ => sectionWriter dbg cdc secComp s) := by
  unfold sectionWriter
  cases secComp with
  | none => exact calls_writeSection dbg s
  | some comp =>
    refine calls_bind (calls_writeSectionHeader _ _) fun _ => calls_bind (calls_lift _) fun _ => ?_
    cases comp with
    | smdiff c => exact calls_encodePlain _ _ _ _
    | zstd => exact calls_writeCompressed _
    | brotli => exact calls_writeCompressed _

theorem calls_encode (dbg : Bool) (cdc : Codec) (cfg : EncoderConfig) (dict : Option Bytes) (trgt : Bytes) :
    Calls (fun _ _ => encode dbg cdc cfg dict trgt) :=
  calls_encodeWith dbg (sw := fun _ _ => sectionWriter dbg cdc cfg.secComp)
    (calls_sectionWriter dbg cdc cfg.secComp) cfg dict trgt

theorem calls_writeSectionsWith (dbg : Bool) (cdc : Codec) (secComp : Option SecComp) (fmt : Format)
    (ss : List (List Op × SectionHeader)) : Calls (fun _ _ => writeSectionsWith dbg cdc secComp fmt ss) := by
  induction ss with
  | nil => exact calls_pure _
  | cons s ss ih => exact calls_bind (calls_sectionWriter _ _ _ _) fun _ => ih

theorem calls_summaryWrite (dbg : Bool) (cdc : Codec) (ops : List Op) (maxWin : Option Nat) (fmt : Option Format)
    (secComp : Option SecComp) : Calls (fun _ _ => summaryWrite dbg cdc ops maxWin fmt secComp) :=
  calls_writeSectionsWith _ _ _ _ _

theorem calls_transcode (dbg : Bool) (cdc : Codec) (input : Bytes) (fmt : Format) (secComp : Option SecComp)
    (size : Nat) : Calls (fun _ _ => Transcoder.transcode dbg cdc input fmt secComp size) :=
  calls_bind (calls_lift _) fun _ => calls_writeSectionsWith _ _ _ _ _

namespace Vcdiff

theorem calls_flush (dbg : Bool) (st : State) : Calls (fun _ _ => flush dbg st) :=
  calls_bind (calls_writeSection _ _) fun _ => calls_pure _

theorem calls_makeRoom (dbg : Bool) (st : State) (n : UInt32) : Calls (fun _ _ => makeRoom dbg st n) := by
  refine calls_bind (calls_lift _) fun s => ?_
  split
  · exact calls_flush _ _
  · exact calls_pure _

theorem calls_addLoop (dbg : Bool) : ∀ (fuel : Nat) (st : State) (n : UInt32) (data : Bytes),
    Calls (fun _ _ => addLoop dbg fuel st n data) := by
  intro fuel
  induction fuel with
  | zero => intro st n data; exact calls_ite (calls_pure _) (calls_lift _)
  | succ fuel ih =>
    intro st n data
    exact calls_ite (calls_pure _) (calls_bind (calls_makeRoom _ _ _) fun _ => calls_bind (calls_lift _) fun _ =>
      calls_bind (calls_lift _) fun _ => ih _ _ _)

theorem calls_runLoop (dbg : Bool) (b : UInt8) : ∀ (fuel : Nat) (st : State) (n : UInt32),
    Calls (fun _ _ => runLoop dbg b fuel st n) := by
  intro fuel
  induction fuel with
  | zero => intro st n; exact calls_ite (calls_pure _) (calls_lift _)
  | succ fuel ih =>
    intro st n
    exact calls_ite (calls_pure _) (calls_bind (calls_makeRoom _ _ _) fun _ => calls_bind (calls_lift _) fun _ =>
      calls_bind (calls_lift _) fun _ => ih _ _)

theorem calls_seqLoop (dbg : Bool) (src : CopySrc) (a : UInt64) (k : UInt32) : ∀ (fuel : Nat) (st : State) (n : UInt32),
    Calls (fun _ _ => seqLoop dbg src a k fuel st n) := by
  intro fuel
  induction fuel with
  | zero => intro st n; exact calls_ite (calls_pure _) (calls_lift _)
  | succ fuel ih =>
    intro st n
    exact calls_ite (calls_pure _) (calls_bind (calls_makeRoom _ _ _) fun _ => calls_bind (calls_lift _) fun _ => ih _ _)

theorem calls_copyLoop (dbg : Bool) (src : CopySrc) : ∀ (fuel : Nat) (st : State) (a : UInt64) (n : UInt32),
    Calls (fun _ _ => copyLoop dbg src fuel st a n) := by
  intro fuel
  induction fuel with
  | zero => intro st a n; exact calls_ite (calls_pure _) (calls_lift _)
  | succ fuel ih =>
    intro st a n
    exact calls_ite (calls_pure _) (calls_bind (calls_makeRoom _ _ _) fun _ => calls_bind (calls_lift _) fun _ =>
      calls_bind (calls_lift _) fun _ => ih _ _ _)

theorem calls_inst (dbg : Bool) (st : State) (i : VInst) : Calls (fun _ _ => inst dbg st i) := by
  cases i with
  | add len data =>
    exact calls_bind (calls_lift _) fun _ => calls_bind (calls_addLoop _ _ _ _ _) fun _ => calls_lift _
  | run len byte => exact calls_bind (calls_runLoop _ _ _ _ _) fun _ => calls_lift _
  | copy len uPos ty =>
    refine calls_bind (calls_lift _) fun x => ?_
    obtain ⟨a, s, _ | ⟨k, n⟩⟩ := x
    · exact calls_bind (calls_copyLoop _ _ _ _ _ _) fun _ => calls_lift _
    · exact calls_bind (calls_seqLoop _ _ _ _ _ _ _) fun _ => calls_lift _

theorem calls_msg (dbg : Bool) (st : State) (m : VMsg) : Calls (fun _ _ => msg dbg st m) := by
  cases m with
  | windowSummary => exact calls_pure _
  | inst first second =>
    refine calls_bind (calls_inst _ _ _) fun st => ?_
    cases second with
    | none => exact calls_pure _
    | some i => exact calls_inst _ _ _
  | endOfWindow => exact calls_pure _
  | fail e => exact calls_throw _

theorem calls_msgs (dbg : Bool) (ms : List VMsg) : ∀ st : State, Calls (fun _ _ => msgs dbg st ms) := by
  induction ms with
  | nil => intro st; exact calls_pure _
  | cons m ms ih => intro st; exact calls_bind (calls_msg _ _ _) fun _ => ih _

theorem calls_convert (dbg : Bool) (ms : List VMsg) : Calls (fun _ _ => convert dbg ms) :=
  calls_bind (calls_msgs _ _ _) fun _ => calls_writeSection _ _

end Vcdiff

theorem calls_run (dbg : Bool) (cdc : Codec) (c : WriteCall) : Calls (fun _ _ => c.run dbg cdc) := by
  cases c with
  | varint n => exact calls_writeAll _
  | sectionHeader h => exact calls_writeSectionHeader _ _
  | ops xs h => exact calls_writeOps _ _ _
  | «section» comp s => exact calls_sectionWriter _ _ _ _
  | encode cfg dict trgt => exact calls_encode _ _ _ _ _
  | merged xs win fmt comp => exact calls_summaryWrite _ _ _ _ _ _
  | transcode input fmt comp size => exact calls_transcode _ _ _ _ _ _
  | convert stream => exact Vcdiff.calls_convert _ _

end Smdiff
