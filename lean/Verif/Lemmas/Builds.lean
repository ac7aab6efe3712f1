import Verif.Model.Transcoder
import Verif.Model.Vcdiff
import Verif.Lemmas.Stable
/-!
# Helper lemmas: debug builds and release builds

`OAg x y`: the debug build's `x` panics or is the release build's `y`.
-/
namespace Smdiff

def OAg {α : Type} (x y : Outcome α) : Prop := x = .panic ∨ x = y

theorem OAg.refl {α : Type} (x : Outcome α) : OAg x x := .inr rfl
theorem OAg.panic {α : Type} (x : Outcome α) : OAg (.panic : Outcome α) x := .inl rfl

theorem OAg.bind {α β : Type} {x y : Outcome α} {f g : α → Outcome β} (h : OAg x y)
    (hf : ∀ a, OAg (f a) (g a)) : OAg (x >>= f) (y >>= g) := by
  rcases h with h | h
  · left; rw [h]; rfl
  · subst h
    cases x with
    | ok a => exact hf a
    | err e => right; rfl
    | panic => left; rfl
    | diverge => right; rfl

/-- A computation that panics or succeeds. -/
def Quiet {α : Type} (x : Outcome α) : Prop := x = .panic ∨ ∃ a, x = .ok a

theorem quiet_slice {α : Type} (l : List α) (i j : Nat) : Quiet (slice l i j) := by
  unfold slice; split
  · exact .inr ⟨_, rfl⟩
  · exact .inl rfl

theorem quiet_assert (b : Bool) : Quiet (Outcome.assert b) := by
  unfold Outcome.assert; split
  · exact .inr ⟨_, rfl⟩
  · exact .inl rfl

theorem quiet_pure {α : Type} (a : α) : Quiet (pure a : Outcome α) := .inr ⟨_, rfl⟩

theorem quiet_bind {α β : Type} {x : Outcome α} {f : α → Outcome β} (h : Quiet x) (hf : ∀ a, Quiet (f a)) :
    Quiet (x >>= f) := by
  rcases h with h | ⟨a, h⟩
  · left; rw [h]; rfl
  · rw [h]; exact hf a

theorem OAg.quiet {α β : Type} {x : Outcome α} {f : α → Outcome β} {y : Outcome β} (h : Quiet x)
    (hf : ∀ a, OAg (f a) y) : OAg (x >>= f) y := by
  rcases h with h | ⟨a, h⟩
  · left; rw [h]; rfl
  · rw [h]; exact hf a

theorem oag_debugAssert {β : Type} (c : Bool) {f g : Unit → Outcome β} (hf : OAg (f ()) (g ())) :
    OAg (Outcome.debugAssert true c >>= f) (Outcome.debugAssert false c >>= g) := by
  cases c
  · left; rfl
  · exact hf

theorem oag_ite {α : Type} {c : Prop} [Decidable c] {a b a' b' : Outcome α} (h1 : c → OAg a a')
    (h2 : ¬ c → OAg b b') : OAg (if c then a else b) (if c then a' else b') := by
  split
  · exact h1 ‹_›
  · exact h2 ‹_›

/-! ## Encoder -/

theorem oag_store (m : SrcMatcher) (hash : UInt64) (pos : Nat) :
    OAg (m.store true hash pos) (m.store false hash pos) :=
  oag_debugAssert _ (OAg.refl _)

theorem oag_storeDirect (src : Bytes) (ps : List Nat) : ∀ m,
    OAg (storeDirect true src ps m) (storeDirect false src ps m) := by
  induction ps with
  | nil => intro m; exact OAg.refl _
  | cons p ps ih => intro m; exact OAg.bind (OAg.refl _) fun _ => OAg.bind (oag_store _ _ _) fun _ => ih _

theorem oag_storeRolling (src : Bytes) (start : Nat) (n : Nat) : ∀ h m,
    OAg (storeRolling true src start n h m) (storeRolling false src start n h m) := by
  induction n with
  | zero => intro h m; exact OAg.refl _
  | succ n ih =>
    intro h m
    refine OAg.bind (OAg.refl _) fun _ => OAg.bind (OAg.refl _) fun _ => ?_
    exact oag_ite (fun _ => OAg.bind (oag_store _ _ _) fun _ => ih _ _) (fun _ => ih _ _)

theorem oag_usz (n : Nat) : OAg (usz true n) (usz false n) := by
  unfold usz
  split
  · exact OAg.refl _
  · exact .inl rfl

theorem oag_windowRange (cur sl tl hw me cwe ls mme : Nat) :
    OAg (windowRange true cur sl tl hw me cwe ls mme) (windowRange false cur sl tl hw me cwe ls mme) := by
  unfold windowRange
  refine oag_ite (fun _ => OAg.refl _) fun _ => oag_ite (fun _ => OAg.refl _) fun _ => ?_
  exact OAg.bind (oag_usz _) fun _ => OAg.bind (OAg.refl _) fun _ => OAg.bind (oag_usz _) fun _ => OAg.refl _

theorem oag_storeWindow (src : Bytes) (a b : Nat) (m : SrcMatcher) :
    OAg (storeWindow true src a b m) (storeWindow false src a b m) := by
  unfold storeWindow
  exact oag_ite (fun _ => oag_storeDirect _ _ _) (fun _ => OAg.bind (OAg.refl _) fun _ => oag_storeRolling _ _ _ _ _)

theorem oag_addStartPositions (m : SrcMatcher) (cur : Nat) (src : Bytes) :
    OAg (addStartPositions true m cur src) (addStartPositions false m cur src) := by
  unfold addStartPositions
  refine oag_ite (fun _ => OAg.refl _) (fun _ => OAg.bind (oag_windowRange _ _ _ _ _ _ _ _) fun r => ?_)
  rcases r with _ | ⟨a, b⟩
  · exact OAg.refl _
  · refine oag_debugAssert _ (OAg.bind ?_ fun _ => oag_storeWindow _ _ _ _)
    unfold nextHash
    exact oag_ite (fun _ => OAg.refl _) (fun _ => oag_usz _)

theorem oag_srcWinSize (cfg : SrcMatcherConfig) : OAg (srcWinSize true cfg) (srcWinSize false cfg) := by
  unfold srcWinSize
  split
  · refine OAg.bind ?_ fun _ => OAg.refl _
    unfold nextPow2U
    split
    · exact OAg.refl _
    · exact .inl rfl
  · exact OAg.refl _

theorem oag_srcBuild (cfg : SrcMatcherConfig) (src : Bytes) (pos : Nat) (trgt : Bytes) :
    OAg (cfg.build true src pos trgt) (cfg.build false src pos trgt) := by
  unfold SrcMatcherConfig.build
  exact OAg.bind (oag_srcWinSize _) fun _ => OAg.bind (OAg.refl _) fun _ => oag_addStartPositions _ _ _

theorem oag_next (l : ChainList) (cur : Nat) (h : UInt64) (fuel : Nat) : ∀ last,
    OAg (l.next true cur h fuel last) (l.next false cur h fuel last) := by
  induction fuel with
  | zero => intro last; exact OAg.refl _
  | succ n ih =>
    intro last
    refine OAg.bind (OAg.refl _) fun o => ?_
    rcases o with _ | b
    · exact OAg.refl _
    · refine oag_ite (fun _ => OAg.refl _) (fun _ => ?_)
      refine oag_ite (fun _ => OAg.panic _) (fun _ => ?_)
      refine oag_ite (fun _ => OAg.refl _) (fun _ => ?_)
      exact oag_ite (fun _ => OAg.refl _) (fun _ => ih _)

theorem oag_findTrgtLoop (m : TrgtMatcher) (trgt : Bytes) (fuel : Nat) : ∀ first last chain best,
    OAg (findTrgtLoop true m trgt fuel first last chain best)
      (findTrgtLoop false m trgt fuel first last chain best) := by
  induction fuel with
  | zero => intros; exact OAg.refl _
  | succ n ih =>
    intro first last chain best
    rw [findTrgtLoop, findTrgtLoop]
    refine oag_ite (fun _ => OAg.refl _) (fun _ => ?_)
    have hk : ∀ p, OAg
        (if p + 4 < m.fwdPos then do
          match ← trgtCandidate trgt m.fwdPos p with
          | none => findTrgtLoop true m trgt n none p chain best
          | some total =>
            if total > bestLen best then
              if total ≥ m.compressEarlyExit then return some (p, total)
              else findTrgtLoop true m trgt n none p (chain - 1) (some (p, total))
            else findTrgtLoop true m trgt n none p (chain - 1) best
        else findTrgtLoop true m trgt n none p chain best)
        (if p + 4 < m.fwdPos then do
          match ← trgtCandidate trgt m.fwdPos p with
          | none => findTrgtLoop false m trgt n none p chain best
          | some total =>
            if total > bestLen best then
              if total ≥ m.compressEarlyExit then return some (p, total)
              else findTrgtLoop false m trgt n none p (chain - 1) (some (p, total))
            else findTrgtLoop false m trgt n none p (chain - 1) best
        else findTrgtLoop false m trgt n none p chain best) := by
      intro p
      refine oag_ite (fun _ => OAg.bind (OAg.refl _) fun o => ?_) (fun _ => ih _ _ _ _)
      rcases o with _ | t
      · exact ih _ _ _ _
      · refine oag_ite (fun _ => ?_) (fun _ => ih _ _ _ _)
        exact oag_ite (fun _ => OAg.refl _) (fun _ => ih _ _ _ _)
    rcases first with _ | p
    · refine OAg.bind (oag_next _ _ _ _ _) fun o => ?_
      rcases o with _ | p
      · exact OAg.refl _
      · exact hk p
    · exact OAg.bind (OAg.refl _) fun o => by
        rcases o with _ | p
        · exact OAg.refl _
        · exact hk p

theorem oag_trgtFind (fuel : Nat) (m : TrgtMatcher) (trgt : Bytes) (minMatch : Nat) :
    OAg (m.findBest true fuel trgt minMatch) (m.findBest false fuel trgt minMatch) := by
  refine OAg.bind (OAg.refl _) fun o => ?_
  rcases o with _ | p
  · exact OAg.refl _
  · exact oag_findTrgtLoop _ _ _ _ _ _ _

theorem oag_startSrc (src trgt : Bytes) (cur : Nat) (m : SrcMatcher) :
    OAg (startSrc true src trgt cur m) (startSrc false src trgt cur m) := by
  unfold startSrc
  refine oag_ite (fun _ => OAg.bind (oag_addStartPositions _ _ _) fun m => OAg.refl _) (fun _ => OAg.refl _)

theorem oag_onSome {α β : Type} {f g : α → Outcome β} (h : ∀ a, OAg (f a) (g a)) (o : Option α) :
    OAg (onSome f o) (onSome g o) := by
  cases o with
  | none => exact OAg.refl _
  | some a => exact OAg.bind (h a) fun _ => OAg.refl _

theorem oag_stepStart (src trgt : Bytes) (st : EncSt) :
    OAg (stepStart true src trgt st) (stepStart false src trgt st) :=
  OAg.bind (OAg.refl _) fun _ => OAg.bind (OAg.refl _) fun _ =>
    OAg.bind (oag_onSome (oag_startSrc _ _ _) _) fun _ => OAg.refl _

theorem oag_tryRun (trgt : Bytes) (st : EncSt) : OAg (tryRun true trgt st) (tryRun false trgt st) := by
  refine OAg.bind (OAg.refl _) fun _ => ?_
  refine oag_ite (fun _ => ?_) (fun _ => OAg.refl _)
  refine OAg.bind (OAg.refl _) fun _ => ?_
  exact oag_ite (fun _ => oag_debugAssert _ (OAg.refl _)) (fun _ => OAg.refl _)

theorem oag_trySrc (src trgt : Bytes) (maxLen : Nat) (st : EncSt) :
    OAg (trySrc true src trgt maxLen st) (trySrc false src trgt maxLen st) := by
  unfold trySrc
  split
  · exact OAg.refl _
  · refine oag_ite (fun _ => ?_) (fun _ => OAg.refl _)
    refine oag_debugAssert _ ?_
    refine OAg.bind (OAg.refl _) fun o => ?_
    rcases o with _ | ⟨s, pre, post⟩
    · exact OAg.refl _
    · refine oag_ite (fun _ => ?_) (fun _ => OAg.refl _)
      simp only
      refine oag_ite (fun _ => OAg.bind (OAg.refl _) fun _ => ?_) (fun _ => ?_)
      · refine oag_debugAssert _ ?_
        exact OAg.quiet (quiet_slice _ _ _) fun _ => OAg.quiet (quiet_slice _ _ _) fun _ =>
          OAg.quiet (quiet_assert _) fun _ => OAg.refl _
      · refine OAg.bind (OAg.refl _) fun _ => oag_debugAssert _ ?_
        exact OAg.quiet (quiet_slice _ _ _) fun _ => OAg.quiet (quiet_slice _ _ _) fun _ =>
          OAg.quiet (quiet_assert _) fun _ => OAg.refl _

theorem oag_tryTrgt (fuel : Nat) (trgt : Bytes) (maxLen : Nat) (st : EncSt) :
    OAg (tryTrgt true fuel trgt maxLen st) (tryTrgt false fuel trgt maxLen st) := by
  unfold tryTrgt
  split
  · exact OAg.refl _
  · refine oag_ite (fun _ => ?_) (fun _ => OAg.refl _)
    refine oag_debugAssert _ ?_
    refine OAg.bind (oag_trgtFind _ _ _ _) fun o => ?_
    rcases o with _ | ⟨s, l⟩
    · exact OAg.refl _
    · refine oag_ite (fun _ => ?_) (fun _ => OAg.refl _)
      refine oag_debugAssert _ ?_
      exact OAg.quiet (quiet_slice _ _ _) fun _ => OAg.quiet (quiet_slice _ _ _) fun _ =>
        OAg.quiet (quiet_assert _) fun _ => OAg.refl _

theorem oag_stepTry (fuel : Nat) (src trgt : Bytes) (maxLen : Nat) (st : EncSt) :
    OAg (stepTry true fuel src trgt maxLen st) (stepTry false fuel src trgt maxLen st) := by
  refine OAg.bind (oag_tryRun _ _) fun p => ?_
  rcases p with ⟨r, f⟩
  simp only
  refine oag_ite (fun _ => OAg.refl _) (fun _ => ?_)
  refine OAg.bind (oag_trySrc _ _ _ _) fun o => ?_
  rcases o with _ | ⟨_, _⟩
  · refine OAg.bind (oag_tryTrgt _ _ _ _) fun o => ?_
    rcases o with _ | ⟨_, _⟩ <;> exact OAg.refl _
  · exact OAg.refl _

theorem oag_encStep (fuel : Nat) (src trgt : Bytes) (maxLen lazyLen : Nat) (st : EncSt) :
    OAg (encStep true fuel src trgt maxLen lazyLen st) (encStep false fuel src trgt maxLen lazyLen st) := by
  unfold encStep
  split
  · exact oag_stepStart _ _ _
  · exact oag_stepTry _ _ _ _ _
  · exact OAg.refl _
  · exact OAg.refl _

theorem oag_encLoop (wf : Nat) (src trgt : Bytes) (maxLen lazyLen : Nat) (fuel : Nat) : ∀ st,
    OAg (encLoop true wf src trgt maxLen lazyLen fuel st) (encLoop false wf src trgt maxLen lazyLen fuel st) := by
  induction fuel with
  | zero => intro st; exact OAg.refl _
  | succ n ih =>
    intro st
    exact oag_ite (fun _ => OAg.refl _) (fun _ => OAg.bind (oag_encStep _ _ _ _ _ _) fun _ => ih _)

theorem oag_encInit (cfg : InnerConfig) (src trgt : Bytes) :
    OAg (encInit true cfg src trgt) (encInit false cfg src trgt) :=
  OAg.bind (OAg.refl _) fun _ => OAg.bind (oag_onSome (fun _ => oag_srcBuild _ _ _ _) _) fun _ => OAg.refl _

theorem oag_encodeInner (wf : Nat) (cfg : InnerConfig) (src trgt : Bytes) :
    OAg (encodeInner true wf cfg src trgt) (encodeInner false wf cfg src trgt) :=
  oag_ite (fun _ => OAg.refl _) (fun _ => OAg.bind (oag_encInit _ _ _) fun _ =>
    OAg.bind (oag_encLoop _ _ _ _ _ _ _) fun _ => OAg.refl _)

/-! ## Writers -/

variable {σ : Type} [Writer σ]

omit [Writer σ] in
theorem agrees_ite {α : Type} {c : Prop} [Decidable c] {a b a' b' : IOm σ α} (h1 : c → Agrees a a')
    (h2 : ¬ c → Agrees b b') : Agrees (if c then a else b) (if c then a' else b') := by
  split
  · exact h1 ‹_›
  · exact h2 ‹_›

theorem oag_subU32 (a b : UInt32) : OAg (subU32 true a b) (subU32 false a b) := by
  unfold subU32
  by_cases h : a < b
  · left; simp [h]
  · right; simp [h]

theorem oag_addU32 (a b : UInt32) : OAg (addU32 true a b) (addU32 false a b) := by
  unfold addU32
  by_cases h : 2 ^ 32 ≤ a.toNat + b.toNat
  · left; simp only [h, decide_true, Bool.and_true, if_true]
  · right; simp only [h, decide_false, Bool.and_false]

theorem oag_addU64 (a b : UInt64) : OAg (addU64 true a b) (addU64 false a b) := by
  unfold addU64
  by_cases h : 2 ^ 64 ≤ a.toNat + b.toNat
  · left; simp only [h, decide_true, Bool.and_true, if_true]
  · right; simp only [h, decide_false, Bool.and_false]

theorem oag_diffI (a b : UInt64) : OAg (diffAddressesToI64 true a b) (diffAddressesToI64 false a b) := by
  unfold diffAddressesToI64
  refine oag_ite (fun _ => OAg.refl _) (fun _ => ?_)
  by_cases h : ((a - b).toBitVec == I64_MIN) = true
  · left; rw [h]; rfl
  · right; simp only [h, Bool.and_false]

theorem agrees_writeSectionHeader (h : SectionHeader) :
    Agrees (writeSectionHeader true h : IOm σ Unit) (writeSectionHeader false h) := by
  refine agrees_bind (agrees_refl _) fun _ => agrees_bind (agrees_refl _) fun _ => ?_
  simp only
  refine agrees_ite (fun _ => ?_) (fun _ => agrees_refl _)
  exact agrees_bind (agrees_refl _) fun _ => agrees_bind (agrees_lift (oag_subU32 _ _)) fun _ => agrees_refl _

theorem agrees_writeOpAddtl (op : Op) (a : Addrs) :
    Agrees (writeOpAddtl true op a : IOm σ Addrs) (writeOpAddtl false op a) := by
  unfold writeOpAddtl
  rcases op with _ | ⟨_ | _, _, _⟩ | _
  · exact agrees_refl _
  · exact agrees_bind (agrees_lift (oag_diffI _ _)) fun _ => agrees_refl _
  · exact agrees_bind (agrees_lift (oag_diffI _ _)) fun _ => agrees_refl _
  · exact agrees_refl _

theorem agrees_writeOpStep (f : Format) (acc : WriteAcc) (op : Op) :
    Agrees (writeOpStep true f acc op : IOm σ WriteAcc) (writeOpStep false f acc op) := by
  unfold writeOpStep
  refine agrees_bind (agrees_refl _) fun _ => ?_
  rcases f with _ | _
  · exact agrees_bind (agrees_writeOpAddtl _ _) fun _ => agrees_refl _
  · rcases op with _ | _ | _
    · exact agrees_bind (agrees_writeOpAddtl _ _) fun _ => agrees_refl _
    · exact agrees_bind (agrees_writeOpAddtl _ _) fun _ => agrees_refl _
    · exact agrees_refl _

theorem agrees_writeOpsLoop (f : Format) (ops : List Op) : ∀ acc,
    Agrees (writeOpsLoop true f ops acc : IOm σ WriteAcc) (writeOpsLoop false f ops acc) := by
  induction ops with
  | nil => intro acc; exact agrees_refl _
  | cons op ops ih => intro acc; exact agrees_bind (agrees_writeOpStep _ _ _) fun _ => ih _

theorem agrees_writeOps (ops : List Op) (h : SectionHeader) :
    Agrees (writeOps true ops h : IOm σ Unit) (writeOps false ops h) :=
  agrees_ite (fun _ => agrees_refl _) (fun _ => agrees_ite (fun _ => agrees_refl _) (fun _ =>
    agrees_bind (agrees_writeOpsLoop _ _ _) fun _ => agrees_refl _))

theorem agrees_writeSection (s : List Op × SectionHeader) :
    Agrees (writeSection true s : IOm σ Unit) (writeSection false s) :=
  agrees_bind (agrees_writeSectionHeader _) fun _ => agrees_writeOps _ _

theorem quiet_debugCheck (src trgt : Bytes) (ops : List Op) : ∀ o, Quiet (debugCheck src trgt o ops) := by
  induction ops with
  | nil => intro o; exact .inr ⟨_, rfl⟩
  | cons op ops ih =>
    intro o
    have hk : ∀ (b : Bool) n, Quiet (if b = true then debugCheck src trgt n ops else pure false) := by
      intro b n
      split
      · exact ih _
      · exact quiet_pure _
    refine quiet_bind (quiet_slice _ _ _) fun t => ?_
    rcases op with _ | ⟨_ | _, _, _⟩ | _
    · exact quiet_bind (quiet_pure _) fun b => hk b _
    · exact quiet_bind (quiet_slice _ _ _) fun _ => quiet_bind (quiet_pure _) fun b => hk b _
    · exact quiet_bind (quiet_slice _ _ _) fun _ => quiet_bind (quiet_pure _) fun b => hk b _
    · exact quiet_bind (quiet_pure _) fun b => hk b _

omit [Writer σ] in
theorem agrees_quiet {α β : Type} {x : Outcome α} {f : α → IOm σ β} {y : IOm σ β} (h : Quiet x)
    (hf : ∀ a, Agrees (f a) y) : Agrees (IOm.lift x >>= f) y := by
  intro s
  rcases h with h | ⟨a, h⟩
  · left; rw [h]; rfl
  · rw [h]; exact hf a s

omit [Writer σ] in
theorem agrees_encodeSections {swT swF : List Op × SectionHeader → IOm σ Unit} (hsw : ∀ s, Agrees (swT s) (swF s))
    (fmt : Format) (src trgt : Bytes) (ss : List (List Op × SectionHeader)) : ∀ pos,
    Agrees (encodeSections true swT fmt src trgt pos ss) (encodeSections false swF fmt src trgt pos ss) := by
  induction ss with
  | nil => intro pos; exact agrees_refl _
  | cons s ss ih =>
    intro pos
    have h : Agrees (swT (s.1, { s.2 with format := fmt }) >>= fun _ =>
          encodeSections true swT fmt src trgt (pos + s.2.outputSize.toNat) ss)
        (swF (s.1, { s.2 with format := fmt }) >>= fun _ =>
          encodeSections false swF fmt src trgt (pos + s.2.outputSize.toNat) ss) :=
      agrees_bind (hsw _) fun _ => ih _
    exact agrees_quiet (quiet_debugCheck _ _ _ _) fun _ => agrees_quiet (quiet_assert _) fun _ => h

omit [Writer σ] in
theorem agrees_encodeWith {swT swF : List Op × SectionHeader → IOm σ Unit} (hsw : ∀ s, Agrees (swT s) (swF s))
    (cfg : EncoderConfig) (dict : Option Bytes) (trgt : Bytes) :
    Agrees (encodeWith true swT cfg dict trgt) (encodeWith false swF cfg dict trgt) :=
  agrees_bind (agrees_lift (oag_encodeInner _ _ _ _)) fun _ => agrees_bind (agrees_refl _) fun _ =>
    agrees_encodeSections hsw _ _ _ _ _

theorem agrees_encodePlain (cfg : EncoderConfig) (dict : Option Bytes) (trgt : Bytes) :
    Agrees (encodePlain true cfg dict trgt : IOm σ Unit) (encodePlain false cfg dict trgt) :=
  agrees_encodeWith agrees_writeSection _ _ _

theorem agrees_sectionWriter (cdc : Codec) (secComp : Option SecComp) (s : List Op × SectionHeader) :
    Agrees (sectionWriter true cdc secComp s : IOm σ Unit) (sectionWriter false cdc secComp s) := by
  unfold sectionWriter
  split
  · exact agrees_writeSection _
  · next comp =>
    refine agrees_bind (agrees_writeSectionHeader _) fun _ => ?_
    rcases agrees_writeOps s.1 { s.2 with compressionAlgo := comp.algoValue } ([] : Bytes) with h | h
    · generalize hw : writeOps true s.1 { s.2 with compressionAlgo := comp.algoValue } ([] : Bytes) = w at h
      rcases w with ⟨r, b⟩
      simp only at h
      subst h
      intro t; left; rfl
    · rw [h]
      refine agrees_bind (agrees_refl _) fun _ => ?_
      rcases comp with _ | _ | _
      · exact agrees_encodePlain _ _ _
      · exact agrees_refl _
      · exact agrees_refl _

theorem agrees_encode (cdc : Codec) (cfg : EncoderConfig) (dict : Option Bytes) (trgt : Bytes) :
    Agrees (encode true cdc cfg dict trgt : IOm σ Unit) (encode false cdc cfg dict trgt) :=
  agrees_encodeWith (agrees_sectionWriter _ _) _ _ _

theorem agrees_writeSectionsWith (cdc : Codec) (secComp : Option SecComp) (fmt : Format)
    (ss : List (List Op × SectionHeader)) :
    Agrees (writeSectionsWith true cdc secComp fmt ss : IOm σ Unit) (writeSectionsWith false cdc secComp fmt ss) := by
  induction ss with
  | nil => exact agrees_refl _
  | cons s ss ih => exact agrees_bind (agrees_sectionWriter _ _ _) fun _ => ih

/-! ## Decoder -/

theorem applyLoop_builds {rdT rdF : IOm Bytes (List Op × SectionHeader)} (h : Agrees rdT rdF) (src : Option Bytes)
    (fuel : Nat) : ∀ it pos c,
    (applyLoop rdT src fuel it pos c).1 = .panic ∨
      applyLoop rdT src fuel it pos c = applyLoop rdF src fuel it pos c := by
  induction fuel with
  | zero => intros; exact .inr rfl
  | succ n ih =>
    intro it pos c
    have hn : (∃ it', it.nextWith rdT = (some .panic, it')) ∨ it.nextWith rdT = it.nextWith rdF := by
      unfold SectionIterator.nextWith
      by_cases hd : it.done = true
      · right; rw [if_pos hd, if_pos hd]
      · rw [if_neg hd, if_neg hd]
        rcases h it.source with h | h
        · left
          match hx : rdT it.source with
          | (.panic, r) => exact ⟨_, rfl⟩
          | (.ok _, r) => simp [hx] at h
          | (.err _, r) => simp [hx] at h
          | (.diverge, r) => simp [hx] at h
        · right; rw [h]
    rw [applyLoop, applyLoop]
    rcases hn with ⟨it', hn⟩ | hn
    · left; rw [hn]
    · rw [hn]
      split
      · right; rfl
      · split
        · exact ih _ _ _
        all_goals right; rfl
      all_goals right; rfl

theorem agrees_readOpsComp (cdc : Codec) (h : SectionHeader) :
    Agrees (readOpsComp true cdc h) (readOpsComp false cdc h) := by
  have hf : ∀ win rest : Bytes, (readOpsFrom true h win rest).1 = .panic ∨
      readOpsFrom true h win rest = readOpsFrom false h win rest := by
    intro win rest
    rcases agrees_readOpsNoComp h win with h' | h'
    · left; exact h'
    · right; unfold readOpsFrom; rw [h']
  have ht : ∀ d : Decompressor, (readOpsThrough true h d).1 = .panic ∨
      readOpsThrough true h d = readOpsThrough false h d := by
    intro d
    rcases agrees_readOpsNoComp h d.data with h' | h'
    · left
      unfold readOpsThrough
      generalize readOpsNoComp true h d.data = w at h'
      rcases w with ⟨r, a⟩
      simp only at h'
      subst h'
      rfl
    · right; unfold readOpsThrough; rw [h']
  intro s
  unfold readOpsComp
  by_cases h1 : h.compressionAlgo = 1
  · rw [if_pos h1, if_pos h1]
    have hb := applyLoop_builds agrees_readSection none (s.length + 2) (.new s) 0 .empty
    unfold applyNoSecComp
    rcases hb with hb | hb
    · left
      generalize applyLoop (readSection true) none (s.length + 2) (.new s) 0 .empty = w at hb
      rcases w with ⟨r, a, b⟩
      simp only at hb
      subst hb
      rfl
    · rw [hb]
      split
      · exact hf _ _
      all_goals right; rfl
  · rw [if_neg h1, if_neg h1]
    by_cases h2 : h.compressionAlgo = 2
    · rw [if_pos h2, if_pos h2]
      split
      · next d _ =>
        rcases ht d with h' | h'
        · left; exact h'
        · right; rw [h']
      all_goals right; rfl
    · rw [if_neg h2, if_neg h2]
      by_cases h3 : h.compressionAlgo = 3
      · rw [if_pos h3, if_pos h3]
        split
        · next d _ =>
          rcases ht d with h' | h'
          · left
            simp only [h', Outcome.panic_bind]
          · right; rw [h']
        all_goals right; rfl
      · rw [if_neg h3, if_neg h3]
        exact agrees_readOpsNoComp h s

theorem agrees_readSectionComp (cdc : Codec) : Agrees (readSectionComp true cdc) (readSectionComp false cdc) :=
  agrees_bind agrees_readSectionHeader fun h => agrees_readOpsComp cdc h

/-! ## Merger -/

theorem nextComp_builds (cdc : Codec) (it : SectionIterator) :
    (∃ it', it.nextComp true cdc = (some .panic, it')) ∨ it.nextComp true cdc = it.nextComp false cdc := by
  unfold SectionIterator.nextComp SectionIterator.nextWith
  by_cases hd : it.done = true
  · right; rw [if_pos hd, if_pos hd]
  · rw [if_neg hd, if_neg hd]
    rcases agrees_readSectionComp cdc it.source with h | h
    · left
      match hx : readSectionComp true cdc it.source with
      | (.panic, r) => exact ⟨_, rfl⟩
      | (.ok _, r) => simp [hx] at h
      | (.err _, r) => simp [hx] at h
      | (.diverge, r) => simp [hx] at h
    · right; rw [h]

theorem oag_extractLoop (cdc : Codec) (fuel : Nat) : ∀ it pos stats,
    OAg (extractLoop true cdc fuel it pos stats) (extractLoop false cdc fuel it pos stats) := by
  induction fuel with
  | zero => intros; exact OAg.refl _
  | succ n ih =>
    intro it pos stats
    rw [extractLoop, extractLoop]
    rcases nextComp_builds cdc it with ⟨it', h⟩ | h
    · left; rw [h]
    · rw [h]
      split
      · exact OAg.refl _
      · simp only
        exact OAg.bind (ih _ _ _) fun _ => OAg.refl _
      all_goals exact OAg.refl _

theorem oag_extract (cdc : Codec) (patch : Bytes) :
    OAg (extractPatchInstructions true cdc patch) (extractPatchInstructions false cdc patch) :=
  oag_extractLoop _ _ _ _ _

theorem oag_subU8 (a b : UInt8) : OAg (subU8 true a b) (subU8 false a b) := by
  unfold subU8
  by_cases h : a < b
  · left; simp [h]
  · right; simp [h]

theorem oag_subU16 (a b : UInt16) : OAg (subU16 true a b) (subU16 false a b) := by
  unfold subU16
  by_cases h : a < b
  · left; simp [h]
  · right; simp [h]

theorem oag_skip (op : Op) (amt : UInt32) : OAg (op.skip true amt) (op.skip false amt) := by
  rcases op with _ | _ | _
  · exact OAg.bind (oag_subU8 _ _) fun _ => OAg.refl _
  · exact OAg.bind (oag_addU64 _ _) fun _ => OAg.bind (oag_subU16 _ _) fun _ => OAg.refl _
  · exact OAg.refl _

theorem oag_trunc (op : Op) (amt : UInt32) : OAg (op.trunc true amt) (op.trunc false amt) := by
  rcases op with _ | _ | _
  · exact OAg.bind (oag_subU8 _ _) fun _ => OAg.refl _
  · exact OAg.bind (oag_subU16 _ _) fun _ => OAg.refl _
  · exact oag_ite (fun _ => OAg.panic _) (fun _ => OAg.refl _)

theorem oag_exactSliceLoop (start endPos : Nat) (ops : List SparseOp) :
    OAg (exactSliceLoop true start endPos ops) (exactSliceLoop false start endPos ops) := by
  induction ops with
  | nil => exact OAg.refl _
  | cons s rest ih =>
    rcases s with ⟨oStart, inst⟩
    refine OAg.bind (oag_ite (fun _ => oag_skip _ _) (fun _ => OAg.refl _)) fun _ => ?_
    refine OAg.bind (oag_ite (fun _ => oag_trunc _ _) (fun _ => OAg.refl _)) fun _ => ?_
    refine oag_debugAssert _ ?_
    exact oag_ite (fun _ => OAg.refl _) (fun _ => OAg.bind ih fun _ => OAg.refl _)

theorem oag_getExactSlice (ops : List SparseOp) (start len : Nat) :
    OAg (getExactSlice true ops start len) (getExactSlice false ops start len) := by
  unfold getExactSlice
  split
  · exact OAg.refl _
  · exact oag_exactSliceLoop _ _ _

theorem oag_derefLoop (ops : List SparseOp) : ∀ output pos,
    OAg (derefLoop true ops output pos) (derefLoop false ops output pos) := by
  induction ops with
  | nil => intros; exact OAg.refl _
  | cons s rest ih =>
    intro output pos
    rcases s with ⟨p, _ | ⟨_ | _, _, _⟩ | _⟩
    · exact ih _ _
    · exact ih _ _
    · refine OAg.bind (oag_getExactSlice _ _ _) fun o => ?_
      rcases o with _ | r
      · exact OAg.refl _
      · exact ih _ _
    · exact ih _ _

theorem oag_new (cdc : Codec) (terminal : Bytes) :
    OAg (Merger.new true cdc terminal) (Merger.new false cdc terminal) := by
  refine OAg.bind (oag_extract _ _) fun p => ?_
  refine oag_ite (fun _ => OAg.refl _) (fun _ => ?_)
  exact OAg.bind (oag_derefLoop _ _ _) fun _ => oag_debugAssert _ (OAg.refl _)

theorem oag_mergeLoop (terminal predecessor : List SparseOp) (is : List Nat) : ∀ shift,
    OAg (mergeLoop true terminal predecessor is shift) (mergeLoop false terminal predecessor is shift) := by
  induction is with
  | nil => intros; exact OAg.refl _
  | cons i is ih =>
    intro shift
    refine OAg.bind (OAg.refl _) fun p => ?_
    rcases p with ⟨_, _ | _ | _⟩
    · exact OAg.refl _
    · refine oag_debugAssert _ (OAg.bind (oag_getExactSlice _ _ _) fun o => ?_)
      rcases o with _ | r
      · exact OAg.refl _
      · exact OAg.bind (OAg.refl _) fun _ => OAg.bind (ih _) fun _ => OAg.refl _
    · exact OAg.refl _

theorem oag_merge (cdc : Codec) (m : Merger) (predecessor : Bytes) :
    OAg (m.merge true cdc predecessor) (m.merge false cdc predecessor) := by
  refine oag_debugAssert _ (OAg.bind (oag_extract _ _) fun p => ?_)
  refine OAg.bind (oag_ite (fun _ => oag_derefLoop _ _ _) (fun _ => OAg.refl _)) fun _ => ?_
  exact OAg.bind (oag_mergeLoop _ _ _ _) fun _ => OAg.refl _

/-! ## Transcoder and converter -/

theorem agrees_transcode (cdc : Codec) (input : Bytes) (format : Format) (secComp : Option SecComp) (size : Nat) :
    Agrees (Transcoder.transcode true cdc input format secComp size : IOm σ Unit)
      (Transcoder.transcode false cdc input format secComp size) := by
  refine agrees_bind (agrees_lift ?_) fun _ => agrees_writeSectionsWith _ _ _ _
  exact OAg.bind (OAg.bind (oag_extract _ _) fun _ => OAg.refl _) fun _ => OAg.refl _

namespace Vcdiff

theorem agrees_makeRoom (st : State) (n : UInt32) :
    Agrees (makeRoom true st n : IOm σ State) (makeRoom false st n) :=
  agrees_bind (agrees_lift (oag_addU32 _ _)) fun _ => agrees_ite
    (fun _ => agrees_bind (agrees_writeSection _) fun _ => agrees_refl _) (fun _ => agrees_refl _)

theorem oag_push (st : State) (op : Op) (a b : UInt32) : OAg (push true st op a b) (push false st op a b) :=
  OAg.bind (oag_addU32 _ _) fun _ => OAg.bind (oag_addU32 _ _) fun _ => OAg.refl _

theorem agrees_addLoop (fuel : Nat) : ∀ st remaining data,
    Agrees (addLoop true fuel st remaining data : IOm σ State) (addLoop false fuel st remaining data) := by
  induction fuel with
  | zero => intros; exact agrees_refl _
  | succ n ih =>
    intro st remaining data
    exact agrees_ite (fun _ => agrees_refl _) fun _ => agrees_bind (agrees_makeRoom _ _) fun _ =>
      agrees_bind (agrees_refl _) fun _ => agrees_bind (agrees_lift (oag_push _ _ _ _)) fun _ => ih _ _ _

theorem agrees_runLoop (byte : UInt8) (fuel : Nat) : ∀ st remaining,
    Agrees (runLoop true byte fuel st remaining : IOm σ State) (runLoop false byte fuel st remaining) := by
  induction fuel with
  | zero => intros; exact agrees_refl _
  | succ n ih =>
    intro st remaining
    exact agrees_ite (fun _ => agrees_refl _) fun _ => agrees_bind (agrees_makeRoom _ _) fun _ =>
      agrees_bind (agrees_refl _) fun _ => agrees_bind (agrees_lift (oag_push _ _ _ _)) fun _ => ih _ _

theorem agrees_seqLoop (src : CopySrc) (addr : UInt64) (len : UInt32) (fuel : Nat) : ∀ st remaining,
    Agrees (seqLoop true src addr len fuel st remaining : IOm σ State) (seqLoop false src addr len fuel st remaining) := by
  induction fuel with
  | zero => intros; exact agrees_refl _
  | succ n ih =>
    intro st remaining
    exact agrees_ite (fun _ => agrees_refl _) fun _ => agrees_bind (agrees_makeRoom _ _) fun _ =>
      agrees_bind (agrees_lift (oag_push _ _ _ _)) fun _ => ih _ _

theorem agrees_copyLoop (src : CopySrc) (fuel : Nat) : ∀ st addr remaining,
    Agrees (copyLoop true src fuel st addr remaining : IOm σ State) (copyLoop false src fuel st addr remaining) := by
  induction fuel with
  | zero => intros; exact agrees_refl _
  | succ n ih =>
    intro st addr remaining
    exact agrees_ite (fun _ => agrees_refl _) fun _ => agrees_bind (agrees_makeRoom _ _) fun _ =>
      agrees_bind (agrees_lift (oag_push _ _ _ _)) fun _ => agrees_bind (agrees_lift (oag_addU64 _ _)) fun _ => ih _ _ _

theorem oag_subU64 (a b : UInt64) : OAg (subU64 true a b) (subU64 false a b) := by
  unfold subU64
  by_cases h : a < b
  · left; simp [h]
  · right; simp [h]

theorem oag_copyAddr (st : State) (len uPos : UInt32) (ty : CopyType) :
    OAg (copyAddr true st len uPos ty) (copyAddr false st len uPos ty) := by
  rcases ty with _ | _ | _
  · unfold copyAddr
    cases st.ssp with
    | none => exact OAg.refl _
    | some ssp => exact OAg.bind (oag_addU64 _ _) fun _ => OAg.refl _
  · exact OAg.bind (oag_subU32 _ _) fun _ => OAg.bind (oag_subU64 _ _) fun _ => OAg.refl _
  · exact OAg.bind (oag_subU32 _ _) fun _ => OAg.bind (oag_subU64 _ _) fun _ => OAg.refl _

theorem oag_advance (st : State) (len : UInt32) : OAg (advance true st len) (advance false st len) :=
  OAg.bind (oag_addU64 _ _) fun _ => OAg.refl _

theorem agrees_inst (st : State) (i : VInst) : Agrees (inst true st i : IOm σ State) (inst false st i) := by
  rcases i with ⟨len, data⟩ | ⟨len, b⟩ | ⟨len, u, ty⟩
  · exact agrees_bind (agrees_refl _) fun _ => agrees_bind (agrees_addLoop _ _ _ _) fun _ =>
      agrees_lift (oag_advance _ _)
  · exact agrees_bind (agrees_runLoop _ _ _ _) fun _ => agrees_lift (oag_advance _ _)
  · refine agrees_bind (agrees_lift (oag_copyAddr _ _ _ _)) fun p => ?_
    rcases p with ⟨addr, src, _ | ⟨a, b⟩⟩
    · exact agrees_bind (agrees_copyLoop _ _ _ _ _) fun _ => agrees_lift (oag_advance _ _)
    · exact agrees_bind (agrees_seqLoop _ _ _ _ _ _) fun _ => agrees_lift (oag_advance _ _)

theorem agrees_msg (st : State) (m : VMsg) : Agrees (msg true st m : IOm σ State) (msg false st m) := by
  rcases m with _ | ⟨a, _ | b⟩ | _ | _
  · exact agrees_refl _
  · exact agrees_bind (agrees_inst _ _) fun _ => agrees_refl _
  · exact agrees_bind (agrees_inst _ _) fun _ => agrees_inst _ _
  · exact agrees_refl _
  · exact agrees_refl _

theorem agrees_msgs (ms : List VMsg) : ∀ st, Agrees (msgs true st ms : IOm σ State) (msgs false st ms) := by
  induction ms with
  | nil => intro st; exact agrees_refl _
  | cons m ms ih => intro st; exact agrees_bind (agrees_msg _ _) fun _ => ih _

theorem agrees_convert (ms : List VMsg) : Agrees (convert true ms : IOm σ Unit) (convert false ms) :=
  agrees_bind (agrees_msgs _ _) fun _ => agrees_writeSection _

end Vcdiff
end Smdiff
