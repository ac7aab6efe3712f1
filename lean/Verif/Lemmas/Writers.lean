import Verif.Lemmas.WriteInv
import Verif.Model.Transcoder
import Verif.Model.Vcdiff
/-!
# Helper lemmas: whole tools on a writer that fails
-/
namespace Smdiff

theorem sim_writeSection (dbg : Bool) (s : List Op × SectionHeader) : Sim (writeSection dbg s) (writeSection dbg s) :=
  sim_bind (sim_writeSectionHeader _ _) fun _ => sim_writeOps _ _ _

theorem sim_ite {α : Type} {c : Prop} [Decidable c] {x x' : IOm Bytes α} {y y' : IOm LimitedWriter α}
    (h : Sim x y) (h' : Sim x' y') : Sim (if c then x else x') (if c then y else y') := by
  split
  · exact h
  · exact h'

theorem sim_encodeSections (dbg : Bool) {sw : List Op × SectionHeader → IOm Bytes Unit}
    {sw' : List Op × SectionHeader → IOm LimitedWriter Unit} (h : ∀ s, Sim (sw s) (sw' s)) (fmt : Format)
    (src trgt : Bytes) : ∀ (ss : List (List Op × SectionHeader)) (o : Nat),
    Sim (encodeSections dbg sw fmt src trgt o ss) (encodeSections dbg sw' fmt src trgt o ss) := by
  intro ss
  induction ss with
  | nil => intro o; exact sim_pure _
  | cons s ss ih =>
    intro o
    have key := fun (_ : Unit) => sim_bind (h (s.1, { s.2 with format := fmt }))
      fun _ => ih (o + s.2.outputSize.toNat)
    rw [encodeSections, encodeSections]
    cases dbg
    · simp only [Bool.false_eq_true, if_false]
      exact key ()
    · simp only [if_true]
      exact sim_bind (sim_lift _) fun _ => sim_bind (sim_lift _) key

theorem sim_encodeWith (dbg : Bool) {sw : List Op × SectionHeader → IOm Bytes Unit}
    {sw' : List Op × SectionHeader → IOm LimitedWriter Unit} (h : ∀ s, Sim (sw s) (sw' s)) (cfg : EncoderConfig)
    (dict : Option Bytes) (trgt : Bytes) :
    Sim (encodeWith dbg sw cfg dict trgt) (encodeWith dbg sw' cfg dict trgt) :=
  sim_bind (sim_lift _) fun _ => sim_bind (sim_lift _) fun _ => sim_encodeSections dbg h _ _ _ _ _

theorem sim_encodePlain (dbg : Bool) (cfg : EncoderConfig) (dict : Option Bytes) (trgt : Bytes) :
    Sim (encodePlain dbg cfg dict trgt) (encodePlain dbg cfg dict trgt) :=
  sim_encodeWith dbg (sim_writeSection dbg) cfg dict trgt

theorem sim_writeCompressed (r : Outcome Bytes) : Sim (writeCompressed r) (writeCompressed r) :=
  sim_bind (sim_lift _) fun _ => sim_writeAll _

theorem sim_sectionWriter (dbg : Bool) (cdc : Codec) (secComp : Option SecComp) (s : List Op × SectionHeader) :
    Sim (sectionWriter dbg cdc secComp s) (sectionWriter dbg cdc secComp s) := by
  unfold sectionWriter
  cases secComp with
  | none => exact sim_writeSection dbg s
  | some comp =>
    refine sim_bind (sim_writeSectionHeader _ _) fun _ => sim_bind (sim_lift _) fun _ => ?_
    cases comp with
    | smdiff c => exact sim_encodePlain _ _ _ _
    | zstd => exact sim_writeCompressed _
    | brotli => exact sim_writeCompressed _

theorem sim_encode (dbg : Bool) (cdc : Codec) (cfg : EncoderConfig) (dict : Option Bytes) (trgt : Bytes) :
    Sim (encode dbg cdc cfg dict trgt) (encode dbg cdc cfg dict trgt) :=
  sim_encodeWith dbg (sim_sectionWriter dbg cdc cfg.secComp) cfg dict trgt

theorem sim_writeSectionsWith (dbg : Bool) (cdc : Codec) (secComp : Option SecComp) (fmt : Format)
    (ss : List (List Op × SectionHeader)) :
    Sim (writeSectionsWith dbg cdc secComp fmt ss) (writeSectionsWith dbg cdc secComp fmt ss) := by
  induction ss with
  | nil => exact sim_pure _
  | cons s ss ih => exact sim_bind (sim_sectionWriter _ _ _ _) fun _ => ih

theorem sim_summaryWrite (dbg : Bool) (cdc : Codec) (ops : List Op) (maxWin : Option Nat) (fmt : Option Format)
    (secComp : Option SecComp) :
    Sim (summaryWrite dbg cdc ops maxWin fmt secComp) (summaryWrite dbg cdc ops maxWin fmt secComp) :=
  sim_writeSectionsWith _ _ _ _ _

theorem sim_transcode (dbg : Bool) (cdc : Codec) (input : Bytes) (fmt : Format) (secComp : Option SecComp)
    (size : Nat) :
    Sim (Transcoder.transcode dbg cdc input fmt secComp size) (Transcoder.transcode dbg cdc input fmt secComp size) :=
  sim_bind (sim_lift _) fun _ => sim_writeSectionsWith _ _ _ _ _

namespace Vcdiff

theorem sim_flush (dbg : Bool) (st : State) : Sim (flush dbg st) (flush dbg st) :=
  sim_bind (sim_writeSection _ _) fun _ => sim_pure _

theorem sim_makeRoom (dbg : Bool) (st : State) (n : UInt32) : Sim (makeRoom dbg st n) (makeRoom dbg st n) := by
  refine sim_bind (sim_lift _) fun s => ?_
  split
  · exact sim_flush _ _
  · exact sim_pure _

theorem sim_addLoop (dbg : Bool) : ∀ (fuel : Nat) (st : State) (n : UInt32) (data : Bytes),
    Sim (addLoop dbg fuel st n data) (addLoop dbg fuel st n data) := by
  intro fuel
  induction fuel with
  | zero => intro st n data; exact sim_ite (sim_pure _) (sim_lift _)
  | succ fuel ih =>
    intro st n data
    exact sim_ite (sim_pure _) (sim_bind (sim_makeRoom _ _ _) fun _ => sim_bind (sim_lift _) fun _ =>
      sim_bind (sim_lift _) fun _ => ih _ _ _)

theorem sim_runLoop (dbg : Bool) (b : UInt8) : ∀ (fuel : Nat) (st : State) (n : UInt32),
    Sim (runLoop dbg b fuel st n) (runLoop dbg b fuel st n) := by
  intro fuel
  induction fuel with
  | zero => intro st n; exact sim_ite (sim_pure _) (sim_lift _)
  | succ fuel ih =>
    intro st n
    exact sim_ite (sim_pure _) (sim_bind (sim_makeRoom _ _ _) fun _ => sim_bind (sim_lift _) fun _ =>
      sim_bind (sim_lift _) fun _ => ih _ _)

theorem sim_seqLoop (dbg : Bool) (src : CopySrc) (a : UInt64) (k : UInt32) : ∀ (fuel : Nat) (st : State) (n : UInt32),
    Sim (seqLoop dbg src a k fuel st n) (seqLoop dbg src a k fuel st n) := by
  intro fuel
  induction fuel with
  | zero => intro st n; exact sim_ite (sim_pure _) (sim_lift _)
  | succ fuel ih =>
    intro st n
    exact sim_ite (sim_pure _) (sim_bind (sim_makeRoom _ _ _) fun _ => sim_bind (sim_lift _) fun _ => ih _ _)

theorem sim_copyLoop (dbg : Bool) (src : CopySrc) : ∀ (fuel : Nat) (st : State) (a : UInt64) (n : UInt32),
    Sim (copyLoop dbg src fuel st a n) (copyLoop dbg src fuel st a n) := by
  intro fuel
  induction fuel with
  | zero => intro st a n; exact sim_ite (sim_pure _) (sim_lift _)
  | succ fuel ih =>
    intro st a n
    exact sim_ite (sim_pure _) (sim_bind (sim_makeRoom _ _ _) fun _ => sim_bind (sim_lift _) fun _ =>
      sim_bind (sim_lift _) fun _ => ih _ _ _)

theorem sim_inst (dbg : Bool) (st : State) (i : VInst) : Sim (inst dbg st i) (inst dbg st i) := by
  cases i with
  | add len data =>
    exact sim_bind (sim_lift _) fun _ => sim_bind (sim_addLoop _ _ _ _ _) fun _ => sim_lift _
  | run len byte => exact sim_bind (sim_runLoop _ _ _ _ _) fun _ => sim_lift _
  | copy len uPos ty =>
    refine sim_bind (sim_lift _) fun x => ?_
    obtain ⟨a, s, _ | ⟨k, n⟩⟩ := x
    · exact sim_bind (sim_copyLoop _ _ _ _ _ _) fun _ => sim_lift _
    · exact sim_bind (sim_seqLoop _ _ _ _ _ _ _) fun _ => sim_lift _

theorem sim_msg (dbg : Bool) (st : State) (m : VMsg) : Sim (msg dbg st m) (msg dbg st m) := by
  cases m with
  | windowSummary => exact sim_pure _
  | inst first second =>
    refine sim_bind (sim_inst _ _ _) fun st => ?_
    cases second with
    | none => exact sim_pure _
    | some i => exact sim_inst _ _ _
  | endOfWindow => exact sim_pure _
  | fail e => exact sim_throw _

theorem sim_msgs (dbg : Bool) (ms : List VMsg) : ∀ st : State, Sim (msgs dbg st ms) (msgs dbg st ms) := by
  induction ms with
  | nil => intro st; exact sim_pure _
  | cons m ms ih => intro st; exact sim_bind (sim_msg _ _ _) fun _ => ih _

theorem sim_convert (dbg : Bool) (ms : List VMsg) : Sim (convert dbg ms) (convert dbg ms) :=
  sim_bind (sim_msgs _ _ _) fun _ => sim_writeSection _ _

end Vcdiff
end Smdiff
