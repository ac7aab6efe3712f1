import Verif.Lemmas.OpMaker
/-!
# C32-C34: from candidates to operations
-/
namespace Smdiff
open Spec

/-! ## C32, C33 -/

/-- **C32.** For every list of true candidates with non-decreasing starts and ends, of any length and
overlap pattern, `translate_inner_ops` returns normally, and its operations denote exactly the target.
(A slice has less than `2^64` bytes.) -/
theorem C32_translate (dict : Option Bytes) (trgt : Bytes) (ops : List InnerOp)
    (hs : (dict.getD []).length < 2 ^ 64) (ht : trgt.length < 2 ^ 64)
    (hc : Candidates (dict.getD []) trgt ops) :
    ∃ r, translateInnerOps trgt ops = .ok r ∧ meaning dict r = some trgt := by
  obtain ⟨r, e, h, -⟩ := translate_ok dict trgt hs ht hc
  exact ⟨r, e, by simpa [meaning] using h⟩

/-- **C33.** and all its operations are legal: positive lengths, Runs of at most 62 bytes, Adds and Copies
of at most 65535, dictionary copies inside the dictionary, output copies inside the output so far. -/
theorem C33_translate (dict : Option Bytes) (trgt : Bytes) (ops : List InnerOp) (r : List Op)
    (hs : (dict.getD []).length < 2 ^ 64) (ht : trgt.length < 2 ^ 64)
    (hc : Candidates (dict.getD []) trgt ops) (hr : translateInnerOps trgt ops = .ok r) :
    Emitted ((dict.getD []).length) 0 r := by
  obtain ⟨r', e, -, h⟩ := translate_ok dict trgt hs ht hc
  rw [hr] at e
  cases e
  exact h

/-- Three overlapping candidates, the middle one redundant, then a gap and a run. -/
def demoCands : List InnerOp :=
  [.matchSrc 0 20 0, .matchSrc 2 20 2, .matchSrc 8 20 8, .run 7 9 30]

def demoDict : Bytes := (List.range 40).map UInt8.ofNat
def demoTrgt : Bytes := (List.range 28).map UInt8.ofNat ++ [100, 101] ++ List.replicate 9 7 ++ [9]

theorem demoCands_ok : Candidates demoDict demoTrgt demoCands := by
  refine ⟨?_, ?_, ?_⟩
  · intro op ho
    simp only [demoCands, List.mem_cons, List.not_mem_nil, or_false] at ho
    rcases ho with rfl | rfl | rfl | rfl <;>
    · simp only [TrueCand]; decide
  · simp [demoCands, candStart]
  · simp [demoCands, candEnd]

example : translateInnerOps demoTrgt demoCands =
    .ok [.copy .dict 0 14, .copy .dict 14 14, .add [100, 101], .run 7 9, .run 9 1] := by decide
example : ∃ r, translateInnerOps demoTrgt demoCands = .ok r ∧ meaning (some demoDict) r = some demoTrgt :=
  C32_translate (some demoDict) demoTrgt demoCands (by decide) (by decide) demoCands_ok

/-! ## C34 -/

/-- **C34.** `make_run_ops(byte, len, pos)`, executed when the output has length `pos`, appends exactly
`len` times the byte. -/
theorem C34_run_meaning (dict : Option Bytes) (b : UInt8) (len : Nat) (out : Bytes)
    (hs : out.length < 2 ^ 64) :
    exec dict (makeRunOps b len out.length) out = some (out ++ List.replicate len b) ∧
    Emitted ((dict.getD []).length) out.length (makeRunOps b len out.length) :=
  emits_makeRunOps dict b len out hs

theorem runChunks_shape (b : UInt8) : ∀ (fuel len : Nat), len < 62 * fuel →
    (∀ op ∈ runChunks b fuel len, ∃ n : UInt8, op = .run b n ∧ 1 ≤ n.toNat ∧ n.toNat ≤ 62) ∧
    (runChunks b fuel len).length = (len + 61) / 62 := by
  intro fuel
  induction fuel with
  | zero => intro len h; omega
  | succ fuel ih =>
    intro len h
    rw [runChunks]
    split
    · next h0 => subst h0; simp
    · next h0 =>
      have hm : MAX_RUN_LEN = 62 := rfl
      rw [hm]
      have hc : (UInt8.ofNat (min 62 len)).toNat = min 62 len := by rw [UInt8.toNat_ofNat']; omega
      have hrec : (∀ op ∈ runChunks b fuel (len - min 62 len),
            ∃ n : UInt8, op = .run b n ∧ 1 ≤ n.toNat ∧ n.toNat ≤ 62) ∧
          (runChunks b fuel (len - min 62 len)).length = (len - min 62 len + 61) / 62 := by
        by_cases hf : fuel = 0
        · subst hf
          have : len - min 62 len = 0 := by omega
          rw [this]
          simp [runChunks]
        · exact ih _ (by omega)
      refine ⟨fun op ho => ?_, by simp only [List.length_cons, hrec.2]; omega⟩
      rcases List.mem_cons.1 ho with rfl | ho
      · exact ⟨_, rfl, by omega, by omega⟩
      · exact hrec.1 op ho

theorem runCopies_doubling (start : Nat) (hs : start < 2 ^ 64) : ∀ (fuel w rem : Nat), 0 < w → rem ≤ fuel →
    Doubling start w rem (runCopies start fuel w rem) := by
  intro fuel
  induction fuel with
  | zero =>
    intro w rem _ hr
    have : rem = 0 := by omega
    subst this
    exact .done _
  | succ fuel ih =>
    intro w rem hw hr
    rw [runCopies]
    split
    · next h0 => subst h0; exact .done _
    · next h0 =>
      have hm : MAX_INST_SIZE = 65535 := rfl
      rw [hm]
      have hc : (UInt16.ofNat (min (min w rem) 65535)).toNat = min (min w rem) 65535 := by
        rw [UInt16.toNat_ofNat']; omega
      refine .step _ _ _ _ _ (by omega) (by rw [UInt64.toNat_ofNat']; omega) hc ?_
      rw [hc]
      exact ih _ _ (by omega) (by omega)

/-- **C34.** Below 372 bytes only Runs of at most 62 bytes are used, and no more than necessary (at most
6); from 372 bytes on three Runs of 62 bytes and then copies from the beginning of the run, each as long
as possible. -/
theorem C34_run_shape (b : UInt8) (len pos : Nat) (hp : pos < 2 ^ 64) :
    (len < 372 → (∀ op ∈ makeRunOps b len pos, ∃ n : UInt8, op = .run b n ∧ 1 ≤ n.toNat ∧ n.toNat ≤ 62) ∧
      (makeRunOps b len pos).length = (len + 61) / 62 ∧ (makeRunOps b len pos).length ≤ 6) ∧
    (372 ≤ len → ∃ cs, makeRunOps b len pos = [.run b 62, .run b 62, .run b 62] ++ cs ∧
      Doubling pos 186 (len - 186) cs) := by
  have e1 : RUN_LIMIT = 372 := rfl
  have e2 : COPY_LIMIT = 186 := rfl
  have e3 : MAX_RUN_LEN = 62 := rfl
  unfold makeRunOps
  rw [e1, e2, e3]
  refine ⟨fun h => ?_, fun h => ?_⟩
  · rw [if_pos h]
    obtain ⟨h1, h2⟩ := runChunks_shape b (len / 62 + 1) len (by omega)
    exact ⟨h1, h2, by omega⟩
  · rw [if_neg (by omega)]
    exact ⟨_, rfl, runCopies_doubling pos hp _ _ _ (by omega) (by omega)⟩

example : makeRunOps 5 1000 3 = [.run 5 62, .run 5 62, .run 5 62, .copy .output 3 186,
    .copy .output 3 372, .copy .output 3 256] := by decide
example : makeRunOps 5 130 3 = [.run 5 62, .run 5 62, .run 5 6] := by decide

end Smdiff
