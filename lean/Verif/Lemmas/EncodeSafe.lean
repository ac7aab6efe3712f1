import Verif.Lemmas.Encode
import Verif.Lemmas.Termination
import Verif.SpecRun
/-!
# When `encode` returns
-/
namespace Smdiff
open Spec

/-- `Safe` for code that acts on a writer. -/
def SafeW {σ α : Type} (pn dv : Prop) (m : IOm σ α) : Prop := ∀ w, Safe pn dv (m w).1

theorem SafeW.bind {σ α β : Type} {pn dv : Prop} {m : IOm σ α} {f : α → IOm σ β} (hm : SafeW pn dv m)
    (hf : ∀ a, SafeW pn dv (f a)) : SafeW pn dv (m >>= f) := by
  intro w
  have h := hm w
  rw [IOm.bind_run]
  generalize m w = r at h
  rcases r with ⟨o, w'⟩
  cases o with
  | ok a => exact hf a w'
  | err e => exact h.elim
  | panic => exact h
  | diverge => exact h

theorem SafeW.lift {σ α : Type} {pn dv : Prop} {o : Outcome α} (h : Safe pn dv o) :
    SafeW (σ := σ) pn dv (IOm.lift o) := fun _ => h

theorem naive_none (src trgt : Bytes) : naiveResult none src trgt = ([], 0, trgt.length) := by
  unfold naiveResult; split <;> rfl

theorem encodeOps_safe {dbg : Bool} {cfg : EncoderConfig} {dict : Option Bytes} {trgt : Bytes} {pn dv : Prop}
    (hs : (dict.getD []).length < 2 ^ 64) (ht : trgt.length < 2 ^ 64)
    (h : Safe pn dv (encodeInner dbg (walkFuel cfg.matchTrgt trgt)
      { matchTrgt := cfg.matchTrgt, matchSrc := cfg.matchSrc, lazyEscapeLen := cfg.lazyEscapeLen
        naiveTests := cfg.naiveTests } (dict.getD []) trgt)) : Safe pn dv (encodeOps dbg cfg dict trgt) := by
  cases e : encodeInner dbg (walkFuel cfg.matchTrgt trgt)
      { matchTrgt := cfg.matchTrgt, matchSrc := cfg.matchSrc, lazyEscapeLen := cfg.lazyEscapeLen
        naiveTests := cfg.naiveTests } (dict.getD []) trgt with
  | ok segs =>
    obtain ⟨ops, e2⟩ := encodeOps_outcome hs ht e
    exact Safe.of_ok e2
  | err x => rw [e] at h; exact h.elim
  | panic => rw [e] at h; rw [encodeOps, e]; exact h
  | diverge => rw [e] at h; rw [encodeOps, e]; exact h

theorem encodePlain_safe_inner {dbg : Bool} {c : TrgtMatcherConfig} {buf : Bytes} {pn dv : Prop}
    (hc : ¬ CapacityOk c → pn) (hb : buf.length < 2 ^ 63) :
    SafeW (σ := Bytes) pn dv
      (encodePlain dbg { EncoderConfig.default with matchSrc := none, matchTrgt := some c } none buf) := by
  have hin : Safe pn dv (encodeOps dbg { EncoderConfig.default with matchSrc := none, matchTrgt := some c }
      none buf) := by
    refine encodeOps_safe (by simp) (by omega) (encodeInner_safe ?_ ?_ ?_ ?_ ?_ ?_ ?_)
    · rw [walkFuel_eq]; omega
    · intro c' h hn; cases h; exact hc hn
    · intro c' _ h
      rw [show (EncoderConfig.default.naiveTests) = none from rfl, naive_none] at h
      exact absurd h (Nat.lt_irrefl _)
    · intro h; exact absurd rfl h
    · intro c' _ h
      rw [show (EncoderConfig.default.naiveTests) = none from rfl, naive_none] at h
      exact absurd h (Nat.lt_irrefl _)
    · intro h; exact absurd rfl h
    · intro c' h; cases h
  intro w
  cases e : encodeOps dbg { EncoderConfig.default with matchSrc := none, matchTrgt := some c } none buf with
  | ok ops =>
    obtain ⟨ss, bs, k1, -⟩ := encodePlain_spec dbg dbg _ none buf (by simp) hb e
    rw [k1 w]
    trivial
  | err x => rw [e] at hin; exact hin.elim
  | panic =>
    rw [e] at hin
    rw [encodePlain, encodeWith_eq dbg _ _ none buf (by simp) hb, e]
    exact hin
  | diverge =>
    rw [e] at hin
    rw [encodePlain, encodeWith_eq dbg _ _ none buf (by simp) hb, e]
    exact hin

theorem sectionWriter_safe {dbg : Bool} {cdc : Codec} {comp : Option SecComp} {pn dv : Prop}
    (hlib : UsesLibrary comp → LibraryWorks cdc)
    (hc : ∀ c, comp = some (.smdiff c) → ¬ CapacityOk c → pn)
    {s : List Op × SectionHeader} (hs : SecOk s) (haddr : dbg = true → ∀ op ∈ s.1, AddrsBelow63 op) :
    SafeW (σ := Bytes) pn dv (sectionWriter dbg cdc comp s) := by
  have hfar := fun e => noFarJumps_of_below s.1 (haddr e)
  cases comp with
  | none =>
    intro w
    obtain ⟨bs, h1, -⟩ := writeSection_enc dbg dbg s hs (fun e => hfar (by simpa using e))
    have e : sectionWriter dbg cdc none s w = (.ok (), w ++ bs) := h1 w
    rw [e]; trivial
  | some comp =>
    let h : SectionHeader := { s.2 with compressionAlgo := comp.algoValue }
    have hsec : SecOk (s.1, h) := by
      obtain ⟨-, b, c, d, f, g⟩ := hs
      refine ⟨?_, b, c, d, f, g⟩
      cases comp <;> simp [h, SecComp.algoValue]
    obtain ⟨hok1, hleg, hn, ho, hadd, hmax⟩ := hsec
    simp only at hn ho hadd hmax
    have hle := addBytes_le s.1
    obtain ⟨hbs, hh, hwh⟩ := writeSectionHeader_spec dbg h hok1 (fun _ => by omega)
    have hfars : dbg = true → NoFars .zero s.1 := fun e => (noFars_iff s.1 .zero).2 (hfar e)
    obtain ⟨body, hb, hwb⟩ := writeOps_spec dbg s.1 h hleg (fun e => noMins_of_noFars _ _ (hfars e))
    have hwok : WriteOk s.1 h := ⟨by rw [ho]; exact hmax, hn.symm, ho.symm, fun _ => hadd.symm⟩
    have hbody := (hwb []).1 hwok
    simp only [List.nil_append] at hbody
    have hln : s.1.length < 2 ^ 32 := by rw [← hn]; exact UInt32.toNat_lt _
    have hlen : body.length < 2 ^ 63 := by
      have := bodyEnc_len hb
      omega
    have hbody' : writeOps dbg s.1 { s.2 with compressionAlgo := comp.algoValue } ([] : Bytes) = (.ok (), body) := hbody
    unfold sectionWriter
    simp only
    intro w
    rw [IOm.bind_ok (hwh w), hbody']
    refine SafeW.bind (SafeW.lift (o := Outcome.ok ()) trivial) (fun _ => ?_) _
    cases comp with
    | smdiff c => exact encodePlain_safe_inner (hc c rfl) hlen
    | zstd =>
      obtain ⟨f, e⟩ := (hlib (Or.inl rfl)).1 body
      intro w
      simp only [writeCompressed]
      rw [e]
      trivial
    | brotli =>
      obtain ⟨f, e⟩ := (hlib (Or.inr rfl)).2 body
      intro w
      simp only [writeCompressed]
      rw [e]
      trivial

theorem writeEach_safe {σ : Type} {sw : List Op × SectionHeader → IOm σ Unit} {pn dv : Prop} {fmt : Format}
    {secs : List (List Op × SectionHeader)} (h : ∀ s ∈ secs, SafeW pn dv (sw (s.1, { s.2 with format := fmt }))) :
    SafeW pn dv (writeEach sw fmt secs) := by
  induction secs with
  | nil => intro w; trivial
  | cons s ss ih => exact SafeW.bind (h s (by simp)) (fun _ => ih (fun t ht => h t (by simp [ht])))

theorem naive_start {tests : Option NaiveTests} {src trgt : Bytes} (h : 0 < (naiveResult tests src trgt).2.1) :
    StartsWithSource tests src trgt ∧ (naiveResult tests src trgt).2.1 = src.length := by
  unfold naiveResult at *
  simp only at *
  by_cases hl : trgt.length > src.length
  · have hl' := hl
    simp only [hl', if_true] at h ⊢
    rcases tests with _ | (_ | _ | _ | _) <;> simp only at h ⊢
    · exact absurd h (Nat.lt_irrefl _)
    all_goals
      unfold StartsWithSource
      (repeat' split at h) <;> rename_i hp <;>
        first
        | exact absurd h (Nat.lt_irrefl _)
        | (refine ⟨⟨by simp, h, hl, List.isPrefixOf_iff_prefix.1 (by assumption)⟩, ?_⟩; simp_all)
  · simp only [hl, if_false] at h
    exact absurd h (Nat.lt_irrefl _)

theorem encode_safe (dbg : Bool) (cdc : Codec) (cfg : EncoderConfig) (dict : Option Bytes) (trgt : Bytes)
    (hs : (dict.getD []).length < 2 ^ 63) (ht : trgt.length < 2 ^ 63)
    (hlib : UsesLibrary cfg.secComp → LibraryWorks cdc) :
    SafeW (σ := Bytes) (PanicCause dbg cfg (dict.getD []) trgt) (DivergeCause cfg (dict.getD []) trgt)
      (encode dbg cdc cfg dict trgt) := by
  rw [encode, encodeWith_eq dbg _ cfg dict trgt hs ht]
  obtain ⟨hb1, hb2, -⟩ := naive_bounds cfg.naiveTests (dict.getD []) trgt
  have hin : Safe (PanicCause dbg cfg (dict.getD []) trgt) (DivergeCause cfg (dict.getD []) trgt)
      (encodeOps dbg cfg dict trgt) := by
    refine encodeOps_safe (by omega) (by omega) (encodeInner_safe ?_ ?_ ?_ ?_ ?_ ?_ ?_)
    · rw [walkFuel_eq]; omega
    · intro c h hn; exact .capacity c h hn
    · intro c hc h0 _ hlt
      obtain ⟨h1, h2⟩ := naive_start h0
      rw [h2] at hlt
      exact .appended (by simp only at hc; rw [hc]; simp) h1 hlt
    · intro hsm op h1 h2 h3 h4
      have e1 : candStart op = op.oPos := by cases op <;> rfl
      have e2 : candEnd op = op.oPos + op.len := by cases op <;> rfl
      exact .late hsm ⟨op, h1, by simp only at h2; omega, by simp only at h4; omega, by omega⟩
    · intro c hc h0 _
      obtain ⟨h1, h2⟩ := naive_start h0
      exact ⟨by simp only at hc; rw [hc]; simp, h1⟩
    · intro hm hd hb
      rcases hb with h | h | h
      · omega
      · omega
      · exact .product hd hm h
    · rintro c hc hd ⟨n, hn, h⟩
      exact .window c n hd hc hn h
  intro w
  cases e : encodeOps dbg cfg dict trgt with
  | err x => rw [e] at hin; exact hin.elim
  | panic => rw [e] at hin; exact hin
  | diverge => rw [e] at hin; exact hin
  | ok ops =>
    have hem := encodeOps_emits (by omega) (by omega) e
    obtain ⟨g1, g2, g3, g4⟩ := encodeSecs_ok (cfg := cfg) hs ht hem
    exact writeEach_safe (fun s hs => sectionWriter_safe hlib (fun c h hn => .compCapacity c h hn)
      ((g2 s hs).format cfg.format) (fun _ op ho => (g4 s hs op ho).2)) w

end Smdiff
