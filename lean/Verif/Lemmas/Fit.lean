import Verif.SpecFit
import Verif.Lemmas.MergeKinds
/-!
# Lemmas on which patches fit together
-/
namespace Smdiff
open Spec

/-- Every copy from the output stays within the `k` bytes there are. -/
def OutFits : Nat → List Op → Prop
  | _, [] => True
  | k, op :: ops => (∀ a n, op = .copy .output a n → a.toNat + n.toNat ≤ k) ∧ OutFits (k + opLen op) ops

/-- Every copy from the dictionary stays within its `n` bytes. -/
def DictFits (n : Nat) (ops : List Op) : Prop := ∀ a m, Op.copy .dict a m ∈ ops → a.toNat + m.toNat ≤ n

theorem range_isSome {bs : Bytes} {a n : Nat} (hn : 1 ≤ n) : (range bs a n).isSome ↔ a + n ≤ bs.length := by
  unfold range
  split
  · simp; omega
  · simp; omega

theorem exec_fits {d : Bytes} : ∀ {ops : List Op} {out : Bytes}, (∀ op ∈ ops, 1 ≤ opLen op) →
    ((exec (some d) ops out).isSome ↔ OutFits out.length ops ∧ DictFits d.length ops) := by
  intro ops
  induction ops with
  | nil => intro out _; simp [exec, OutFits, DictFits]
  | cons op ops ih =>
    intro out h
    have hp := h op (by simp)
    have hi := fun out => @ih out (fun o ho => h o (by simp [ho]))
    rw [exec, Option.isSome_bind]
    have key : (produce (some d) out op).isSome ↔ (∀ a n, op = .copy .output a n → a.toNat + n.toNat ≤ out.length) ∧
        (∀ a n, op = .copy .dict a n → a.toNat + n.toNat ≤ d.length) := by
      rcases op with ⟨b, n⟩ | ⟨_ | _, a, n⟩ | bs
      · simp [produce]
      · simp only [produce, Option.bind_some, range_isSome (show 1 ≤ n.toNat from hp)]
        constructor
        · intro hh; exact ⟨fun _ _ e => (nomatch e), fun a' n' e => by cases e; exact hh⟩
        · intro hh; exact hh.2 _ _ rfl
      · simp only [produce, range_isSome (show 1 ≤ n.toNat from hp)]
        constructor
        · intro hh; exact ⟨fun a' n' e => by cases e; exact hh, fun _ _ e => (nomatch e)⟩
        · intro hh; exact hh.1 _ _ rfl
      · simp [produce]
    have hd : DictFits d.length (op :: ops) ↔ (∀ a n, op = .copy .dict a n → a.toNat + n.toNat ≤ d.length) ∧
        DictFits d.length ops := by
      unfold DictFits
      constructor
      · intro hh; exact ⟨fun a n e => hh a n (by simp [e]), fun a n e => hh a n (by simp [e])⟩
      · intro hh a n e
        rcases List.mem_cons.1 e with e | e
        · exact hh.1 _ _ e.symm
        · exact hh.2 _ _ e
    rw [OutFits, hd]
    cases hb : produce (some d) out op with
    | none =>
      rw [hb] at key
      simp only [Option.isSome_none, Bool.false_eq_true, false_iff] at key
      simp only [Option.any_none, Bool.false_eq_true, false_iff]
      tauto
    | some bs =>
      rw [hb] at key
      simp only [Option.isSome_some, true_iff] at key
      simp only [Option.any_some]
      rw [hi, List.length_append, produce_length hb]
      tauto

theorem meaning_fits {d : Bytes} {ops : List Op} (h : ∀ op ∈ ops, 1 ≤ opLen op) :
    (∃ out, meaning (some d) ops = some out) ↔ OutFits 0 ops ∧ DictFits d.length ops := by
  rw [← Option.isSome_iff_exists]
  exact exec_fits h

theorem applies_iff {ops : List Op} (h : Regular ops) : Applies ops ↔ OutFits 0 ops := by
  have hp : ∀ op ∈ ops, 1 ≤ opLen op := fun op ho => (h op ho).1
  constructor
  · rintro ⟨d, out, e⟩
    exact ((meaning_fits hp).1 ⟨out, e⟩).1
  · intro hf
    refine ⟨List.replicate (2 ^ 64) 0, (meaning_fits hp).2 ⟨hf, ?_⟩⟩
    rw [List.length_replicate]
    exact fun a n hm => (h _ hm).2

theorem appliesTo_iff {ops : List Op} {n : Nat} (h : ∀ op ∈ ops, 1 ≤ opLen op) :
    AppliesTo n ops ↔ OutFits 0 ops ∧ DictFits n ops := by
  constructor
  · intro ha
    have := (meaning_fits h).1 (ha (List.replicate n 0) List.length_replicate)
    rwa [List.length_replicate] at this
  · rintro hf d rfl
    exact (meaning_fits h).2 hf

theorem outFits_of_noCopyO : ∀ {ops : List Op} {k : Nat}, NoCopyO ops → OutFits k ops := by
  intro ops
  induction ops with
  | nil => intro k _; trivial
  | cons op ops ih =>
    intro k h
    exact ⟨fun a n e => absurd (by simp [e]) (h a n), ih fun a n e => h a n (by simp [e])⟩

theorem appliesTo_plain {ops : List Op} {n : Nat} (h : Plain ops) : AppliesTo n ops ↔ DictFits n ops := by
  rw [appliesTo_iff h.pos]
  exact ⟨fun a => a.2, fun a => ⟨outFits_of_noCopyO h.noO, a⟩⟩

/-- What dereferencing does: it succeeds if every copy from the output stays within what is there, and panics
otherwise. -/
theorem derefLoop_total (dbg : Bool) :
    ∀ (xs : List SparseOp) (l o : List Op), (∀ op ∈ l, Sized op ∧ AddrFits op) → (∀ s ∈ xs, s.2 ∈ l) →
    Plain o → PartsOf (others l) o →
    (OutFits (totalLen o) (xs.map (·.2)) → ∃ r, derefLoop dbg xs (tagged 0 o) (totalLen o) = .ok (tagged 0 r) ∧
      Plain r ∧ PartsOf (others l) r ∧ totalLen r = totalLen o + totalLen (xs.map (·.2))) ∧
    (¬ OutFits (totalLen o) (xs.map (·.2)) → derefLoop dbg xs (tagged 0 o) (totalLen o) = .panic) := by
  intro xs
  induction xs with
  | nil =>
    intro l o _ _ h1 h2
    exact ⟨fun _ => ⟨o, rfl, h1, h2, by simp [totalLen]⟩, fun h => absurd trivial h⟩
  | cons x xs ih =>
    intro l o hl hx h1 h2
    obtain ⟨q, op⟩ := x
    have hmem : op ∈ l := hx (q, op) (by simp)
    obtain ⟨hsz, hf⟩ := hl op hmem
    have hx' : ∀ s ∈ xs, s.2 ∈ l := fun s hs => hx s (by simp [hs])
    have hol : ∀ op ∈ others l, opLen op ≤ 65535 := fun op ho => (hl op (mem_others.1 ho).1).1.2
    have hno : NoCopyO (others l) := noCopyO_iff.2 fun op ho => (mem_others.1 ho).2
    rw [List.map_cons, OutFits, totalLen_cons]
    by_cases hk : opTy op = 1
    · obtain ⟨a, n, rfl⟩ := opTy_one.1 hk
      have hn : 0 < n.toNat := hsz.1
      by_cases hbound : a.toNat + n.toNat ≤ totalLen o
      · obtain ⟨r, er, hne, hp, hv⟩ := (getExactSlice_spec dbg o h1.sized a.toNat n.toNat hn).1 hbound
        have hp' : PartsOf (others l) r := h2.trans hp
        have hsr := hp'.sized hol
        have hlr : totalLen r = opLen (.copy .output a n) := by
          rw [← valsL_length none r, hv none, List.length_take, List.length_drop, valsL_length]
          simp only [opLen]; omega
        have hlo : totalLen (o ++ r) = totalLen o + opLen (.copy .output a n) := by rw [totalLen_append, hlr]
        have hplain : Plain (o ++ r) := ⟨(h2.append hp').noCopyO hno, (h2.append hp').sized hol⟩
        have hi := ih l (o ++ r) hl hx' hplain (h2.append hp')
        have e : derefLoop dbg ((q, .copy .output a n) :: xs) (tagged 0 o) (totalLen o)
            = derefLoop dbg xs (tagged 0 (o ++ r)) (totalLen (o ++ r)) := by
          rw [derefLoop, er]
          simp only [Outcome.ok_bind]
          rw [tagged_snd, pushOps_eq _ _ (fun o ho => (hsr o ho).1.2)]
        rw [e]
        rw [hlo] at hi ⊢
        refine ⟨fun h => ?_, fun h => hi.2 (fun hh => h ⟨fun a' n' e => by cases e; exact hbound, hh⟩)⟩
        obtain ⟨r', e', g1, g2, g3⟩ := hi.1 h.2
        exact ⟨r', e', g1, g2, by rw [g3, Nat.add_assoc]⟩
      · refine ⟨fun h => absurd (h.1 _ _ rfl) hbound, fun _ => ?_⟩
        rw [derefLoop, (getExactSlice_spec dbg o h1.sized a.toNat n.toNat hn).2 (by omega)]
        rfl
    · have hone : PartsOf (others l) [op] := by
        intro op' ho'
        simp only [List.mem_singleton] at ho'
        subst ho'
        exact ⟨hsz.1, op', mem_others.2 ⟨hmem, hk⟩, _, _, Part.refl hf⟩
      have hplain : Plain (o ++ [op]) := ⟨(h2.append hone).noCopyO hno, (h2.append hone).sized hol⟩
      have hne : ∀ a n, op ≠ .copy .output a n := fun a n he => hk (opTy_one.2 ⟨a, n, he⟩)
      have hlo : totalLen (o ++ [op]) = totalLen o + opLen op := by rw [totalLen_append]; simp [totalLen]
      have hi := ih l (o ++ [op]) hl hx' hplain (h2.append hone)
      have hpush := pushOps_eq [op] o (by simpa using hsz.2)
      have e : derefLoop dbg ((q, op) :: xs) (tagged 0 o) (totalLen o)
          = derefLoop dbg xs (tagged 0 (o ++ [op])) (totalLen (o ++ [op])) := by
        rcases op with _ | ⟨_ | _, a, n⟩ | _
        · rw [derefLoop, hpush]; simp
        · rw [derefLoop, hpush]; simp
        · exact absurd rfl (hne a n)
        · rw [derefLoop, hpush]; simp
      rw [e]
      rw [hlo] at hi ⊢
      refine ⟨fun h => ?_, fun h => hi.2 (fun hh => h ⟨fun a' n' e => absurd e (hne a' n'), hh⟩)⟩
      obtain ⟨r', e', g1, g2, g3⟩ := hi.1 h.2
      exact ⟨r', e', g1, g2, by rw [g3, Nat.add_assoc]⟩

theorem derefCopyO_total (dbg : Bool) {ops : List Op} (hl : ∀ op ∈ ops, Sized op ∧ AddrFits op) :
    (OutFits 0 ops → ∃ r, derefCopyO dbg (tagged 0 ops) = .ok (tagged 0 r) ∧ Plain r ∧ PartsOf (others ops) r ∧
      totalLen r = totalLen ops) ∧
    (¬ OutFits 0 ops → derefCopyO dbg (tagged 0 ops) = .panic) := by
  have := derefLoop_total dbg (tagged 0 ops) ops [] hl (fun s hs => by
    have : s.2 ∈ (tagged 0 ops).map (·.2) := List.mem_map_of_mem hs
    rwa [tagged_snd] at this)
    ⟨fun _ _ h => (nomatch h), fun _ h => (nomatch h)⟩ (fun _ h => (nomatch h))
  simp only [tagged_snd, totalLen, List.map_nil, List.sum_nil, Nat.zero_add] at this
  exact this

/-- Every copy from the dictionary has its replacement. -/
theorem exists_replaced' (dbg : Bool) {q : List Op} (hq : ∀ op ∈ q, Sized op ∧ AddrFits op) :
    ∀ (l : List Op), Plain l → DictFits (totalLen q) l →
    ∃ rs, List.Forall₂ (Replaced dbg q) l rs ∧ totalLen rs.flatten = totalLen l ∧
      PartsOf (l.filter (fun op => opTy op ≠ 0) ++ q) rs.flatten := by
  intro l hl hs
  obtain ⟨rs, h1, h2, h3⟩ : ∃ rs, List.Forall₂ (Replaced dbg q) l rs ∧ totalLen rs.flatten = totalLen l ∧
      PartsOf (l.filter (fun op => opTy op ≠ 0) ++ q) rs.flatten := by
    induction l with
    | nil => exact ⟨[], .nil, rfl, fun _ h => nomatch h⟩
    | cons op l ih =>
      have hl' : Plain l := ⟨fun a n h => hl.noO a n (by simp [h]), fun o ho => hl.sized o (by simp [ho])⟩
      obtain ⟨rs, h1, h2, h3⟩ := ih hl' (fun a n ho => hs a n (by simp [ho]))
      obtain ⟨⟨hp, hle⟩, hf⟩ := hl.sized op (by simp)
      have hsub : ∀ o ∈ l.filter (fun op => opTy op ≠ 0) ++ q, o ∈ (op :: l).filter (fun op => opTy op ≠ 0) ++ q := by
        intro o ho
        simp only [List.mem_append, List.mem_filter, List.mem_cons] at ho ⊢
        tauto
      by_cases hd : ∃ a n, op = .copy .dict a n
      · obtain ⟨a, n, rfl⟩ := hd
        have hr := hs a n (by simp)
        obtain ⟨r, e, hne, hpart, hvr⟩ := (getExactSlice_spec dbg q hq a.toNat n.toNat hp).1 hr
        refine ⟨r :: rs, .cons ⟨e, hne⟩ h1, ?_, ?_⟩
        · rw [List.flatten_cons, totalLen_append, totalLen_cons, h2, ← valsL_length none r, hvr none, List.length_take,
            List.length_drop, valsL_length]
          simp only [opLen]; omega
        · rw [List.flatten_cons]
          exact PartsOf.append (hpart.mono (fun o ho => by simp [ho])) (h3.mono hsub)
      · have hk : opTy op ≠ 0 := by
          rcases op with _ | ⟨_ | _, a, n⟩ | _ <;> simp only [opTy] <;> try decide
          exact absurd ⟨a, n, rfl⟩ hd
        refine ⟨[op] :: rs, .cons ?_ h1, ?_, ?_⟩
        · rcases op with _ | ⟨_ | _, a, n⟩ | _ <;> try rfl
          exact absurd ⟨a, n, rfl⟩ hd
        · rw [List.flatten_cons, List.singleton_append, totalLen_cons, totalLen_cons, h2]
        · rw [List.flatten_cons]
          refine PartsOf.append ?_ (h3.mono hsub)
          intro op' ho'
          simp only [List.mem_singleton] at ho'
          subst ho'
          exact ⟨hp, op', by simp [hk], _, _, Part.refl hf⟩
  exact ⟨rs, h1, h2, h3⟩

/-- A copy that does not fit makes the merge panic. -/
theorem mergeLoop_panic (dbg : Bool) {q : List Op} (hq : ∀ op ∈ q, Sized op ∧ AddrFits op) :
    ∀ (suf pre : List Op) (shift : Nat), Plain suf → ¬ DictFits (totalLen q) suf →
    mergeLoop dbg (tagged 0 (pre ++ suf)) (tagged 0 q) (dictIdx suf pre.length) shift = .panic := by
  intro suf
  induction suf with
  | nil => intro pre shift _ h; exact absurd (fun _ _ h => nomatch h) h
  | cons op suf ih =>
    intro pre shift hl h
    have hl' : Plain suf := ⟨fun a n h => hl.noO a n (by simp [h]), fun o ho => hl.sized o (by simp [ho])⟩
    have hp : 1 ≤ opLen op := hl.pos op (by simp)
    have hrec := fun shift => ih (pre ++ [op]) shift hl'
    simp only [List.append_assoc, List.singleton_append, List.length_append, List.length_singleton] at hrec
    by_cases hd : ∃ a n, op = .copy .dict a n
    · obtain ⟨a, n, rfl⟩ := hd
      have hget : idx (tagged 0 (pre ++ .copy .dict a n :: suf)) pre.length
          = .ok (totalLen pre, Op.copy .dict a n) := by
        rw [tagged_append]
        simp [idx, tagged, ← tagged_length 0 pre]
      rw [dictIdx, mergeLoop, hget]
      simp only [Outcome.ok_bind, Outcome.debugAssert, decide_true, Bool.not_true, Bool.and_false, Bool.false_eq_true,
        if_false]
      by_cases hr : a.toNat + n.toNat ≤ totalLen q
      · obtain ⟨r, e, hne, -, -⟩ := (getExactSlice_spec dbg q hq a.toNat n.toNat hp).1 hr
        have hlen : 1 ≤ r.length := by cases r with | nil => exact absurd rfl hne | cons => simp
        rw [e]
        simp only [Outcome.ok_bind, subU, tagged_length]
        rw [if_pos hlen]
        simp only [Outcome.ok_bind]
        rw [hrec _ (fun hs => h fun a' n' ho => by
          rcases List.mem_cons.1 ho with ho | ho
          · cases ho; exact hr
          · exact hs a' n' ho)]
        rfl
      · rw [(getExactSlice_spec dbg q hq a.toNat n.toNat hp).2 (by omega)]
        rfl
    · have e3 : ∀ l k, dictIdx (op :: l) k = dictIdx l (k + 1) := by
        intro l k
        rcases op with _ | ⟨_ | _, a, n⟩ | _ <;> try rfl
        exact absurd ⟨a, n, rfl⟩ hd
      rw [e3]
      exact hrec shift (fun hs => h fun a' n' ho => by
        rcases List.mem_cons.1 ho with ho | ho
        · exact absurd ⟨a', n', ho.symm⟩ hd
        · exact hs a' n' ho)

/-- What holds of everything a program can have got. -/
def GotInv : MergeResult → Prop
  | .merger m => ∃ l, m.terminalPatch = tagged 0 l ∧ m.terminalCopyIndices = dictIdx l 0 ∧ Plain l ∧ ∀ op ∈ l, Legal op
  | .summary ops => NoCopies ops ∧ Plain ops ∧ ∀ op ∈ ops, Legal op

theorem reads_inv {dbg : Bool} {cdc : Codec} {p : Bytes} {ops : List Op} (h : Reads dbg cdc p ops) :
    extractPatchInstructions dbg cdc p = .ok (tagged 0 ops, ops.foldl Stats.count {}) ∧ ∀ op ∈ ops, Legal op := by
  obtain ⟨xs, st, e, rfl⟩ := h
  obtain ⟨h1, h2⟩ := extract_stats e
  obtain ⟨ops, h3, h4, -⟩ := extract_inv e
  refine ⟨by rw [← h1, ← h2]; exact e, ?_⟩
  rw [h3, tagged_snd]
  exact h4

theorem regular_sized {ops : List Op} (h : Regular ops) (hl : ∀ op ∈ ops, Legal op) :
    ∀ op ∈ ops, Sized op ∧ AddrFits op :=
  fun op ho => ⟨⟨(h op ho).1, opLen_legal_le hl op ho⟩, (h op ho).2⟩

theorem parts_dictFits {l r : List Op} {n : Nat} (h : PartsOf l r) (hl : DictFits n l) : DictFits n r := by
  intro a m hm
  obtain ⟨hp, op, ho, x, y, hpart⟩ := h _ hm
  have hk := hpart.kind
  rcases op with _ | ⟨_ | _, a', n'⟩ | _ <;> simp only [opTy] at hk <;> try omega
  have hb := hl a' n' ho
  have := dict_in_range (B := List.replicate n 0) (a := a) (n := m) hp (by
    intro z hz
    rw [hpart.vals] at hz
    have hz := List.mem_of_mem_drop (List.mem_of_mem_take hz)
    simp only [vals, List.mem_map, List.mem_range, Option.bind_some] at hz
    obtain ⟨i, hi, rfl⟩ := hz
    rw [List.getElem?_eq_getElem (by rw [List.length_replicate]; omega)]
    rfl)
  rwa [List.length_replicate] at this

theorem new_total {dbg : Bool} {cdc : Codec} {p : Bytes} {ops : List Op} (hr : Reads dbg cdc p ops) (hg : Regular ops) :
    ((OutFits 0 ops ∧ (dbg = true → UsesDict ops)) →
      ∃ r, Merger.new dbg cdc p = .ok r ∧ GotInv r ∧ totalLen r.ops = totalLen ops ∧
        (∀ n, DictFits n r.ops ↔ DictFits n ops) ∧ ((∃ l, r = .summary l) ↔ NoCopies ops)) ∧
    (¬ (OutFits 0 ops ∧ (dbg = true → UsesDict ops)) → Merger.new dbg cdc p = .panic) := by
  obtain ⟨he, hleg⟩ := reads_inv hr
  have hs := regular_sized hg hleg
  have hpos : ∀ op ∈ ops, 1 ≤ opLen op := fun op ho => (hg op ho).1
  unfold Merger.new
  rw [he]
  simp only [Outcome.ok_bind]
  by_cases hc : NoCopies ops
  · rw [if_pos ((foldl_copyBytes ops {} hpos).2 ⟨rfl, hc⟩), tagged_snd]
    refine ⟨fun _ => ⟨_, rfl, ⟨hc, noCopies_sized hc (fun op ho => (hs op ho).1), hleg⟩, rfl,
      fun n => Iff.rfl, ⟨fun _ => hc, fun _ => ⟨_, rfl⟩⟩⟩, fun h => absurd ?_ h⟩
    exact ⟨outFits_of_noCopyO (noCopies_noCopyO hc), fun _ => .inr hc⟩
  · rw [if_neg (fun h => hc ((foldl_copyBytes ops {} hpos).1 h).2)]
    by_cases ho : OutFits 0 ops
    · obtain ⟨r, e, h1, h2, h3⟩ := (derefCopyO_total dbg hs).1 ho
      rw [e]
      simp only [Outcome.ok_bind, findMergeableCopies_eq, tagged_snd]
      have hkeep := derefLoop_mem (show derefLoop dbg _ [] 0 = _ from e)
      rw [tagged_snd] at hkeep
      have hdict : dictIdx r 0 ≠ [] ↔ ∃ a n, Op.copy .dict a n ∈ ops := by
        constructor
        · intro hne
          apply Classical.byContradiction
          intro hno
          refine hne (dictIdx_nil.2 fun a n hmem => ?_)
          obtain ⟨-, op, hop, x, y, hp⟩ := h2 _ hmem
          have hk := hp.kind
          have hmo := (mem_others.1 hop).1
          rcases op with _ | ⟨_ | _, a', n'⟩ | _ <;> simp only [opTy] at hk <;> try omega
          exact hno ⟨a', n', hmo⟩
        · rintro ⟨a, n, hx⟩ hnil
          have : Op.copy .dict a n ∈ (tagged 0 ops).map (·.2) := by rw [tagged_snd]; exact hx
          obtain ⟨s, hs1, hs2⟩ := List.mem_map.1 this
          refine dictIdx_nil.1 hnil a n ?_
          rw [← hs2]
          exact hkeep.2 s hs1 (by rw [hs2]; simp [opTy])
      by_cases hu : dbg = true → UsesDict ops
      · have hda : Outcome.debugAssert dbg (!(dictIdx r 0).isEmpty) = .ok () := by
          unfold Outcome.debugAssert
          cases dbg with
          | false => rfl
          | true =>
            have := hdict.2 ((hu rfl).resolve_right hc)
            cases hdi : dictIdx r 0 with
            | nil => exact absurd hdi this
            | cons => rfl
        rw [hda]
        refine ⟨fun _ => ⟨_, rfl, ⟨r, rfl, rfl, h1, h2.legal (fun op ho => hleg op (mem_others.1 ho).1)⟩, ?_, ?_,
          fun h => (by obtain ⟨_, h⟩ := h; cases h), fun h => absurd h hc⟩,
          fun h => absurd ⟨ho, hu⟩ h⟩
        · simp only [MergeResult.ops, Merger.finish, tagged_snd, h3]
        · intro n
          simp only [MergeResult.ops, Merger.finish, tagged_snd]
          constructor
          · intro h a m hx
            have : Op.copy .dict a m ∈ (tagged 0 ops).map (·.2) := by rw [tagged_snd]; exact hx
            obtain ⟨s, hs1, hs2⟩ := List.mem_map.1 this
            refine h a m ?_
            rw [← hs2]
            exact hkeep.2 s hs1 (by rw [hs2]; simp [opTy])
          · exact fun h => parts_dictFits h2 (fun a m hx => h a m (mem_others.1 hx).1)
      · refine ⟨fun h => absurd h.2 hu, fun _ => ?_⟩
        rw [Classical.not_imp] at hu
        obtain ⟨rfl, hu⟩ := hu
        have : dictIdx r 0 = [] := Classical.byContradiction fun hne => hu (.inl (hdict.1 hne))
        rw [this]
        rfl
    · refine ⟨fun h => absurd h.1 ho, fun _ => ?_⟩
      rw [(derefCopyO_total dbg hs).2 ho]
      rfl

theorem deref_total {dbg : Bool} {ops : List Op} (hg : Regular ops) (hleg : ∀ op ∈ ops, Legal op) :
    (OutFits 0 ops → ∃ q, derefIfCopies dbg (ops.foldl Stats.count {}) (tagged 0 ops) = .ok (tagged 0 q) ∧ Plain q ∧
      PartsOf ops q ∧ totalLen q = totalLen ops) ∧
    (¬ OutFits 0 ops → derefIfCopies dbg (ops.foldl Stats.count {}) (tagged 0 ops) = .panic) := by
  have hs := regular_sized hg hleg
  have hpos : ∀ op ∈ ops, 1 ≤ opLen op := fun op ho => (hg op ho).1
  unfold derefIfCopies
  by_cases hc : NoCopies ops
  · have h0 := (foldl_copyBytes ops {} hpos).2 ⟨rfl, hc⟩
    rw [if_neg (by simp [Stats.hasCopy, h0])]
    exact ⟨fun _ => ⟨ops, rfl, noCopies_sized hc (fun op ho => (hs op ho).1), PartsOf.self hg, rfl⟩,
      fun h => absurd (outFits_of_noCopyO (noCopies_noCopyO hc)) h⟩
  · have h0 : (ops.foldl Stats.count {}).copyBytes ≠ 0 := fun h => hc ((foldl_copyBytes ops {} hpos).1 h).2
    rw [if_pos (by simp only [Stats.hasCopy, decide_eq_true_eq]; omega)]
    refine ⟨fun h => ?_, (derefCopyO_total dbg hs).2⟩
    obtain ⟨r, e, h1, h2, h3⟩ := (derefCopyO_total dbg hs).1 h
    exact ⟨r, e, h1, h2.mono (fun o ho => (mem_others.1 ho).1), h3⟩

theorem merge_total {dbg : Bool} {cdc : Codec} {m : Merger} (hm : GotInv (.merger m)) {p : Bytes} {ops : List Op}
    (hr : Reads dbg cdc p ops) (hg : Regular ops) :
    ((OutFits 0 ops ∧ DictFits (totalLen ops) m.finish) →
      ∃ r, m.merge dbg cdc p = .ok r ∧ GotInv r ∧ totalLen r.ops = totalLen m.finish) ∧
    (¬ (OutFits 0 ops ∧ DictFits (totalLen ops) m.finish) → m.merge dbg cdc p = .panic) := by
  obtain ⟨he, hleg⟩ := reads_inv hr
  obtain ⟨l, hpatch, hindices, hplain, hlegal⟩ := hm
  have hl : ∀ op ∈ l, opLen op ≤ 65535 := fun op ho => (hplain.sized op ho).1.2
  have hfin : m.finish = l := by rw [Merger.finish, hpatch, tagged_snd]
  rw [hfin]
  have hda : Outcome.debugAssert dbg true = .ok () := by simp [Outcome.debugAssert]
  unfold Merger.merge
  rw [hpatch, hindices, contiguous_tagged l 0 hl, he, hda]
  simp only [Outcome.ok_bind]
  by_cases ho : OutFits 0 ops
  · obtain ⟨q, eq, hq1, hq2, hq3⟩ := (deref_total (dbg := dbg) hg hleg).1 ho
    rw [eq]
    simp only [Outcome.ok_bind]
    rw [← hq3]
    by_cases hd : DictFits (totalLen q) l
    · obtain ⟨rs, h1, h2, h3⟩ := exists_replaced' dbg hq1.sized l hplain hd
      have hq' : ∀ op ∈ q, opLen op ≤ 65535 := fun op ho => (hq1.sized op ho).1.2
      have hsz := h3.sized (by
        intro op ho
        simp only [List.mem_append, List.mem_filter] at ho
        exact ho.elim (fun h => hl op h.1) (hq' op))
      have hno : NoCopyO rs.flatten := h3.noCopyO (by
        intro a n ho
        simp only [List.mem_append, List.mem_filter] at ho
        exact ho.elim (fun h => hplain.noO a n h.1) (hq1.noO a n))
      have hlg := h3.legal (by
        intro op ho
        simp only [List.mem_append, List.mem_filter] at ho
        exact ho.elim (fun h => hlegal op h.1) (hq2.legal hleg op))
      have hrs : ∀ r ∈ rs, ∀ op ∈ r, opLen op ≤ 65535 := fun r hr op ho =>
        (hsz op (List.mem_flatten.2 ⟨r, hr, ho⟩)).1.2
      have hml := mergeLoop_spec dbg q l rs [] 0 h1
      simp only [List.nil_append, List.length_nil, Nat.add_zero] at hml
      have hex := expandTo_spec hl hrs h1
      rw [hml]
      simp only [Outcome.ok_bind, hex, tagged_snd]
      refine ⟨fun _ => ?_, fun h => absurd ⟨ho, hd⟩ h⟩
      cases hdi : dictIdx rs.flatten 0 with
      | nil => exact ⟨_, rfl, ⟨noCopies_of_dictIdx hno hdi, ⟨hno, hsz⟩, hlg⟩, h2⟩
      | cons x y =>
        refine ⟨_, rfl, ⟨rs.flatten, rfl, hdi.symm, ⟨hno, hsz⟩, hlg⟩, ?_⟩
        simp only [MergeResult.ops, Merger.finish, tagged_snd, h2]
    · refine ⟨fun h => absurd h.2 hd, fun _ => ?_⟩
      have := mergeLoop_panic dbg hq1.sized l [] 0 hplain hd
      simp only [List.nil_append, List.length_nil] at this
      rw [this]
      rfl
  · refine ⟨fun h => absurd h.1 ho, fun _ => ?_⟩
    rw [(deref_total (dbg := dbg) hg hleg).2 ho]
    rfl

theorem got_inv {dbg : Bool} {cdc : Codec} {r : MergeResult} (h : Got dbg cdc r) : GotInv r := by
  induction h with
  | new p ops r h1 h2 h3 =>
    have ht := new_total h1 h2
    by_cases hc : OutFits 0 ops ∧ (dbg = true → UsesDict ops)
    · obtain ⟨r', e, h, -⟩ := ht.1 hc
      rw [h3] at e
      cases e
      exact h
    · rw [ht.2 hc] at h3
      cases h3
  | merge m p ops r h0 h1 h2 h3 ih =>
    have ht := merge_total ih h1 h2
    by_cases hc : OutFits 0 ops ∧ DictFits (totalLen ops) m.finish
    · obtain ⟨r', e, h, -⟩ := ht.1 hc
      rw [h3] at e
      cases e
      exact h
    · rw [ht.2 hc] at h3
      cases h3

end Smdiff
