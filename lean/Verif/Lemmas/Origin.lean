import Verif.SpecOrigin
import Verif.Props.Merger
import Verif.Props.Transcoder
/-!
# Helper lemmas: origins
-/
namespace Smdiff
open Spec

/-- A reading of origins that leaves written bytes as they are. -/
def Reads (f : Origin → UInt8) : Prop := ∀ b, f (.written b) = b

theorem reads_byte (src : Bytes) : Reads (Origin.byte src) := fun _ => rfl

theorem rangeOf_map (f : Origin → UInt8) (os : List Origin) (a n : Nat) :
    (rangeOf os a n).map (·.map f) = range (os.map f) a n := by
  unfold rangeOf range
  rw [List.length_map]
  by_cases h : n = 0 ∨ a + n ≤ os.length
  · rw [if_pos h, if_pos h]; simp
  · rw [if_neg h, if_neg h]; rfl

theorem producedFrom_map {f : Origin → UInt8} (hf : Reads f) (d : Option (List Origin)) (out : List Origin) (op : Op) :
    (producedFrom d out op).map (·.map f) = produce (d.map (·.map f)) (out.map f) op := by
  rcases op with ⟨b, n⟩ | ⟨_ | _, a, n⟩ | bs
  · simp [producedFrom, produce, hf b]
  · rcases d with _ | d
    · rfl
    · exact rangeOf_map f d _ _
  · exact rangeOf_map f out _ _
  · simp only [producedFrom, produce, Option.map_some, List.map_map, Option.some.injEq]
    conv_rhs => rw [← List.map_id bs]
    exact List.map_congr_left fun b _ => hf b

theorem traceFrom_map {f : Origin → UInt8} (hf : Reads f) (d : Option (List Origin)) : ∀ (ops : List Op) (out : List Origin),
    (traceFrom d ops out).map (·.map f) = exec (d.map (·.map f)) ops (out.map f) := by
  intro ops
  induction ops with
  | nil => intro out; rfl
  | cons op ops ih =>
    intro out
    rw [traceFrom, exec, ← producedFrom_map hf]
    rcases producedFrom d out op with _ | os
    · rfl
    · simpa using ih (out ++ os)

theorem trace_map {f : Origin → UInt8} (hf : Reads f) (d : Option (List Origin)) (ops : List Op) :
    (trace d ops).map (·.map f) = meaning (d.map (·.map f)) ops := by
  simpa [trace, meaning] using traceFrom_map hf d ops []

theorem trace_of_meaning {f : Origin → UInt8} (hf : Reads f) {d : Option (List Origin)} {ops : List Op} {out : Bytes}
    (h : meaning (d.map (·.map f)) ops = some out) : ∃ os, trace d ops = some os ∧ out = os.map f := by
  rw [← trace_map hf, Option.map_eq_some_iff] at h
  obtain ⟨os, h1, h2⟩ := h
  exact ⟨os, h1, h2.symm⟩

theorem meaning_of_trace {f : Origin → UInt8} (hf : Reads f) {d : Option (List Origin)} {ops : List Op} {os : List Origin}
    (h : trace d ops = some os) : meaning (d.map (·.map f)) ops = some (os.map f) := by
  rw [← trace_map hf, h]; rfl

/-- A step, seen from the origins. -/
theorem step_trace {dbg : Bool} {cdc : Codec} {f : Origin → UInt8} (hf : Reads f) {d : Option (List Origin)} {p out : Bytes}
    (h : Step dbg cdc (d.map (·.map f)) p out) :
    ∃ xs st os, extractPatchInstructions dbg cdc p = .ok (xs, st) ∧ trace d (xs.map (·.2)) = some os ∧ out = os.map f ∧
      ∀ g, Reads g → Step dbg cdc (d.map (·.map g)) p (os.map g) := by
  obtain ⟨pos, ha⟩ := h.applies
  obtain ⟨ops, h1, h2, -⟩ := extract_of_apply ha
  obtain ⟨os, h3, h4⟩ := trace_of_meaning hf h2
  refine ⟨_, _, os, h1, by rw [tagged_snd]; exact h3, h4, fun g hg => ⟨?_, ?_, h.noEmpty⟩⟩
  · exact (Transcoder.gives_iff h1 _ _).2 (meaning_of_trace hg h3)
  · have := h.small
    rw [show out = os.map f from h4] at this
    simpa using this

theorem chain_trace {dbg : Bool} {cdc : Codec} {f : Origin → UInt8} (hf : Reads f) : ∀ (ps : List Bytes)
    (d : Option (List Origin)) (out : Bytes), Chain dbg cdc (d.map (·.map f)) ps out →
    ∃ os, ChainTrace dbg cdc d ps os ∧ out = os.map f ∧ ∀ g, Reads g → Chain dbg cdc (d.map (·.map g)) ps (os.map g) := by
  intro ps
  induction ps with
  | nil => intro d out h; cases h
  | cons p ps ih =>
    intro d out h
    cases h with
    | one _ _ _ h =>
      obtain ⟨xs, st, os, h1, h2, h3, h4⟩ := step_trace hf h
      exact ⟨os, .one _ _ _ _ _ h1 h2, h3, fun g hg => .one _ _ _ (h4 g hg)⟩
    | more _ _ _ mid _ h hc =>
      obtain ⟨xs, st, os, h1, h2, rfl, h4⟩ := step_trace hf h
      obtain ⟨os', k1, k2, k3⟩ := ih (some os) out hc
      exact ⟨os', .more _ _ _ _ _ _ _ h1 h2 k1, k2, fun g hg => .more _ _ _ _ _ (h4 g hg) (k3 g hg)⟩

/-- Origins that all readings take for the same byte are the same. -/
theorem origin_ext {o o' : Origin} (h : ∀ f, Reads f → f o = f o') : o = o' := by
  rcases o with b | i <;> rcases o' with b' | i'
  · have := h (Origin.byte []) (reads_byte [])
    simp only [Origin.byte] at this
    rw [this]
  · have := h (fun | .written c => c | .source _ => b + 1) (fun _ => rfl)
    simp at this
  · have := h (fun | .written c => c | .source _ => b' + 1) (fun _ => rfl)
    simp at this
  · by_cases e : i = i'
    · rw [e]
    · have := h (fun | .written c => c | .source k => if k = i then 1 else 0) (fun _ => rfl)
      simp [Ne.symm e] at this

theorem origins_ext {os os' : List Origin} (h : ∀ f, Reads f → os.map f = os'.map f) : os = os' := by
  have hl : os.length = os'.length := by simpa using congrArg List.length (h _ (reads_byte []))
  refine List.ext_getElem hl fun i h1 h2 => origin_ext fun f hf => ?_
  have := congrArg (fun l : Bytes => l[i]?) (h f hf)
  simpa [h1, h2] using this

theorem itself_byte (src : Bytes) : (itself src).map (Origin.byte src) = src := by
  refine List.ext_getElem (by simp [itself]) fun i h1 h2 => ?_
  simp [itself, Origin.byte, List.getD, h2]

theorem itself_bytes (src : Option Bytes) : (src.map itself).map (·.map (Origin.byte (src.getD []))) = src := by
  rcases src with _ | src
  · rfl
  · simp [itself_byte]

/-! ## Counting -/

theorem mem_rangeOf {os r : List Origin} {a n : Nat} (h : rangeOf os a n = some r) : r.length = n ∧ ∀ o ∈ r, o ∈ os := by
  unfold rangeOf at h
  split at h
  · rename_i hc
    simp only [Option.some.injEq] at h
    subst h
    refine ⟨?_, fun o ho => List.mem_of_mem_drop (List.mem_of_mem_take ho)⟩
    simp only [List.length_take, List.length_drop]
    omega
  · simp at h

theorem traceFrom_count {d : Option (List Origin)} (hd : ∀ l ∈ d, ∀ o ∈ l, o.isSource = true) : ∀ (ops : List Op)
    (out os : List Origin), NoCopyO ops → traceFrom d ops out = some os →
    os.countP Origin.isSource = out.countP Origin.isSource + bytesOf isCopyD ops := by
  intro ops
  induction ops with
  | nil =>
    intro out os _ h
    simp only [traceFrom, Option.some.injEq] at h
    subst h
    simp [bytesOf, totalLen]
  | cons op ops ih =>
    intro out os hno h
    rw [traceFrom, Option.bind_eq_some_iff] at h
    obtain ⟨bs, h1, h2⟩ := h
    have := ih (out ++ bs) os (fun a n ho => hno a n (by simp [ho])) h2
    rw [this, List.countP_append]
    have key : bs.countP Origin.isSource = bytesOf isCopyD [op] := by
      rcases op with ⟨b, n⟩ | ⟨_ | _, a, n⟩ | x
      · simp only [producedFrom, Option.some.injEq] at h1
        subst h1
        simp [bytesOf, isCopyD, totalLen, List.countP_replicate, Origin.isSource]
      · simp only [producedFrom, Option.bind_eq_some_iff] at h1
        obtain ⟨l, rfl, h1⟩ := h1
        obtain ⟨g1, g2⟩ := mem_rangeOf h1
        rw [List.countP_eq_length.2 fun o ho => hd l rfl o (g2 o ho), g1]
        simp [bytesOf, List.filter_cons, isCopyD, totalLen, opLen]
      · exact absurd (List.mem_cons_self) (hno a n)
      · simp only [producedFrom, Option.some.injEq] at h1
        subst h1
        simp [bytesOf, isCopyD, totalLen, Origin.isSource, Function.comp_def]
    rw [key]
    simp only [bytesOf]
    rw [List.filter_cons (xs := ops)]
    by_cases hk : isCopyD op = true
    · simp [hk, totalLen]; omega
    · simp [hk, totalLen]

theorem traceFrom_length {d : Option (List Origin)} : ∀ (ops : List Op) (out os : List Origin),
    traceFrom d ops out = some os → os.length = out.length + totalLen ops := by
  intro ops out os h
  have := traceFrom_map (reads_byte []) d ops out
  rw [h] at this
  have hl := exec_length this.symm
  simpa using hl

end Smdiff
