import Verif.Lemmas.Loop
/-!
# The same bytes read with other headers
-/
namespace Smdiff
open Spec

theorem opsEnc_ge {V : Bytes → Nat → Prop} {inl : Bool} {d o : UInt64} {ops : List Op} {bs : Bytes}
    (h : OpsEnc V inl d o ops bs) : ops.length ≤ bs.length := by
  have hsz : ∀ {ty n : Nat} {hd : Bytes}, SizeEnc ty hd n → 1 ≤ hd.length := by
    intro ty n hd h; cases h <;> simp
  induction h with
  | nil => simp
  | cons d o d' o' op ops bs bss h1 _ ih =>
    have : 1 ≤ bs.length := by
      cases h1 with
      | run => simp
      | add hd bs hs => have := hsz hs; simp only [List.length_append]; omega
      | copyD addr len hd vb delta hs => have := hsz hs; simp only [List.length_append]; omega
      | copyO addr len hd vb delta hs => have := hsz hs; simp only [List.length_append]; omega
    simp only [List.length_cons, List.length_append]
    omega

/-- A reader for more operations delivers the first ones alike, and reads on. -/
theorem readOpsInter_prefix (dbg : Bool) : ∀ (n n' : Nat) (a : Addrs) (c : UInt32) (s r r' : Bytes) (ops ops' : List Op)
    (c1 c2 : UInt32), n ≤ n' → readOpsInter dbg n a c s = (.ok (ops, c1), r) →
    readOpsInter dbg n' a c s = (.ok (ops', c2), r') → ops <+: ops' ∧ r'.length + (n' - n) ≤ r.length := by
  intro n
  induction n with
  | zero =>
    intro n' a c s r r' ops ops' c1 c2 _ h h'
    simp only [readOpsInter, IOm.pure_run, Prod.mk.injEq, Outcome.ok.injEq] at h
    obtain ⟨bs, rfl, k1, k2, -⟩ := readOpsInter_inv dbg _ _ _ _ _ _ _ h'
    have := opsEnc_ge k1
    rw [← h.1.1, ← h.2]
    exact ⟨List.nil_prefix, by simp only [List.length_append]; omega⟩
  | succ n ih =>
    intro n' a c s r r' ops ops' c1 c2 hn h h'
    obtain ⟨m, rfl⟩ : ∃ m, n' = m + 1 := ⟨n' - 1, by omega⟩
    unfold readOpsInter at h h'
    obtain ⟨⟨op, a1⟩, s1, e1, h⟩ := IOm.bind_eq_ok h
    obtain ⟨c3, s2, e2, h⟩ := IOm.bind_eq_ok h
    obtain ⟨⟨l, c4⟩, s3, e3, h⟩ := IOm.bind_eq_ok h
    rw [IOm.bind_ok e1] at h'
    simp only at h'
    rw [IOm.bind_ok e2] at h'
    obtain ⟨⟨l', c5⟩, s4, e4, h'⟩ := IOm.bind_eq_ok h'
    simp only [IOm.pure_run, Prod.mk.injEq, Outcome.ok.injEq] at h h'
    obtain ⟨⟨rfl, rfl⟩, rfl⟩ := h
    obtain ⟨⟨rfl, rfl⟩, rfl⟩ := h'
    obtain ⟨p1, p2⟩ := ih m _ _ _ _ _ _ _ _ _ (by omega) e3 e4
    exact ⟨(List.cons_prefix_cons).2 ⟨rfl, p1⟩, by omega⟩

theorem lift_ok {α : Type} {x : Outcome α} {a : α} {s s' : Bytes} (h : IOm.lift x s = (.ok a, s')) : x = .ok a ∧ s' = s := by
  simp only [IOm.lift, Prod.mk.injEq] at h
  exact ⟨h.1, h.2.symm⟩

theorem addStep_ok {β : Type} {b : Bool} {x : Outcome UInt32} {m : UInt32} {k : UInt32 → IOm Bytes β} {s r : Bytes} {v : β}
    (h : (if b = true then (do let n ← IOm.lift x; k n) else (do let n ← pure m; k n) : IOm Bytes β) s = (.ok v, r)) :
    ∃ q, k q s = (.ok v, r) := by
  split at h
  · obtain ⟨q, s1, e1, e2⟩ := IOm.bind_eq_ok h
    rw [(lift_ok e1).2] at e2
    exact ⟨q, e2⟩
  · exact ⟨m, h⟩

theorem readOpsSeg_prefix (dbg : Bool) : ∀ (n n' : Nat) (a : Addrs) (c m m' : UInt32) (s r r' : Bytes) (ops ops' : List Op)
    (c1 c2 m1 m2 : UInt32), n ≤ n' → readOpsSeg dbg n a c m s = (.ok (ops, c1, m1), r) →
    readOpsSeg dbg n' a c m' s = (.ok (ops', c2, m2), r') → ops <+: ops' ∧ r'.length + (n' - n) ≤ r.length := by
  intro n
  induction n with
  | zero =>
    intro n' a c m m' s r r' ops ops' c1 c2 m1 m2 _ h h'
    simp only [readOpsSeg, IOm.pure_run, Prod.mk.injEq, Outcome.ok.injEq] at h
    obtain ⟨bs, rfl, k1, k2, -⟩ := readOpsSeg_inv dbg _ _ _ _ _ _ _ _ _ h'
    have := opsEnc_ge k1
    rw [← h.1.1, ← h.2]
    exact ⟨List.nil_prefix, by simp only [List.length_append]; omega⟩
  | succ n ih =>
    intro n' a c m m' s r r' ops ops' c1 c2 m1 m2 hn h h'
    obtain ⟨k, rfl⟩ : ∃ k, n' = k + 1 := ⟨n' - 1, by omega⟩
    unfold readOpsSeg at h h'
    obtain ⟨⟨op, a1⟩, s1, e1, h⟩ := IOm.bind_eq_ok h
    obtain ⟨c3, s2, e2, h⟩ := IOm.bind_eq_ok h
    obtain ⟨q, h⟩ := addStep_ok h
    obtain ⟨⟨l, c4, m4⟩, s3, e3, h⟩ := IOm.bind_eq_ok h
    rw [IOm.bind_ok e1] at h'
    simp only at h'
    rw [IOm.bind_ok e2] at h'
    obtain ⟨q', h'⟩ := addStep_ok h'
    obtain ⟨⟨l', c5, m5⟩, s4, e4, h'⟩ := IOm.bind_eq_ok h'
    simp only [IOm.pure_run, Prod.mk.injEq, Outcome.ok.injEq] at h h'
    obtain ⟨⟨rfl, -, -⟩, rfl⟩ := h
    obtain ⟨⟨rfl, -, -⟩, rfl⟩ := h'
    obtain ⟨p1, p2⟩ := ih k _ _ _ _ _ _ _ _ _ _ _ _ _ (by omega) e3 e4
    exact ⟨(List.cons_prefix_cons).2 ⟨rfl, p1⟩, by omega⟩

theorem lens_mask {a b : List Op} (h : a.map (maskAdd false) = b.map (maskAdd false)) : a.map opLen = b.map opLen := by
  have e : ∀ l : List Op, l.map opLen = (l.map (maskAdd false)).map opLen := by
    intro l
    rw [List.map_map]
    exact List.map_congr_left fun op _ => (opLen_mask op).symm
  rw [e a, e b, h]

theorem addLen_prefix {a b : List Op} (h : a <+: b) : (addBytes a).length ≤ (addBytes b).length := by
  obtain ⟨t, rfl⟩ := h
  simp [addBytes]

theorem addLens_mask {a b : List Op} (h : a.map (maskAdd false) = b.map (maskAdd false)) :
    (addBytes a).length = (addBytes b).length := by
  have e : ∀ l : List Op, (addBytes l).length = (addBytes (l.map (maskAdd false))).length := by
    intro l
    induction l with
    | nil => rfl
    | cons op l ih =>
      rw [List.map_cons, addBytes_cons, addBytes_cons, List.length_append, List.length_append, ih, addLen_mask]
  rw [e a, e b, h]

/-- The lengths of the operations that are read from the same bytes with two headers. -/
theorem readOpsNoComp_prefix {dbg : Bool} {h h' : SectionHeader} {s r r' : Bytes} {ops ops' : List Op} {sh sh' : SectionHeader}
    (hf : h'.format = h.format) (hn : h.numOperations.toNat ≤ h'.numOperations.toNat)
    (e : readOpsNoComp dbg h s = (.ok (ops, sh), r)) (e' : readOpsNoComp dbg h' s = (.ok (ops', sh'), r')) :
    ops.map opLen <+: ops'.map opLen ∧ r'.length + (h'.numOperations.toNat - h.numOperations.toNat) ≤ r.length ∧
      (h.format = .interleaved → ops <+: ops') := by
  unfold readOpsNoComp at e e'
  rw [hf] at e'
  rcases hfo : h.format with _ | _ <;> rw [hfo] at e e' <;> simp only at e e'
  · obtain ⟨⟨l, c⟩, s1, e1, e⟩ := IOm.bind_eq_ok e
    obtain ⟨⟨l', c'⟩, s2, e2, e'⟩ := IOm.bind_eq_ok e'
    simp only at e e'
    split at e
    · cases e
    split at e'
    · cases e'
    simp only [IOm.pure_run, Prod.mk.injEq, Outcome.ok.injEq] at e e'
    obtain ⟨⟨rfl, -⟩, rfl⟩ := e
    obtain ⟨⟨rfl, -⟩, rfl⟩ := e'
    obtain ⟨p1, p2⟩ := readOpsInter_prefix dbg _ _ _ _ _ _ _ _ _ _ _ hn e1 e2
    exact ⟨p1.map _, p2, fun _ => p1⟩
  · obtain ⟨⟨l, c, m⟩, s1, e1, e⟩ := IOm.bind_eq_ok e
    obtain ⟨⟨l', c', m'⟩, s2, e2, e'⟩ := IOm.bind_eq_ok e'
    simp only at e e'
    split at e
    · cases e
    split at e'
    · cases e'
    obtain ⟨k, s3, e3, e⟩ := IOm.bind_eq_ok e
    obtain ⟨k', s4, e4, e'⟩ := IOm.bind_eq_ok e'
    simp only [IOm.pure_run, Prod.mk.injEq, Outcome.ok.injEq] at e e'
    obtain ⟨⟨rfl, -⟩, rfl⟩ := e
    obtain ⟨⟨rfl, -⟩, rfl⟩ := e'
    obtain ⟨p1, p2⟩ := readOpsSeg_prefix dbg _ _ _ _ _ _ _ _ _ _ _ _ _ _ _ hn e1 e2
    obtain ⟨rfl, m1⟩ := fillAdds_inv _ _ _ _ e3
    obtain ⟨rfl, m2⟩ := fillAdds_inv _ _ _ _ e4
    rw [lens_mask m1, lens_mask m2]
    refine ⟨p1.map _, ?_, by simp⟩
    have := addLen_prefix p1
    rw [← addLens_mask m1, ← addLens_mask m2] at this
    simp only [List.length_append] at p2
    omega

/-- What a successful read of operations says of the header. -/
theorem readOpsNoComp_fields {dbg : Bool} {h : SectionHeader} {s r : Bytes} {ops : List Op} {sh : SectionHeader}
    (e : readOpsNoComp dbg h s = (.ok (ops, sh), r)) :
    ops.length = h.numOperations.toNat ∧ h.outputSize.toNat = totalLen ops % 2 ^ 32 ∧ (dbg = true → totalLen ops < 2 ^ 32) ∧
      ∀ op ∈ ops, Legal op := by
  unfold readOpsNoComp at e
  rcases hfo : h.format with _ | _ <;> rw [hfo] at e <;> simp only at e
  · obtain ⟨⟨l, c⟩, s1, e1, e⟩ := IOm.bind_eq_ok e
    simp only at e
    split at e
    · cases e
    · next hc =>
      simp only [IOm.pure_run, Prod.mk.injEq, Outcome.ok.injEq] at e
      obtain ⟨⟨rfl, -⟩, -⟩ := e
      obtain ⟨bs, -, k1, k2, k3, k4⟩ := readOpsInter_inv dbg _ _ _ _ _ _ _ e1
      have hc' : c = h.outputSize := by simpa using hc
      refine ⟨k2, ?_, fun hd => by simpa using k4 hd, opsEnc_legal k1⟩
      rw [← hc', k3]
      simp [UInt32.toNat_ofNat']
  · obtain ⟨⟨l, c, m⟩, s1, e1, e⟩ := IOm.bind_eq_ok e
    simp only at e
    split at e
    · cases e
    · next hc =>
      obtain ⟨k, s3, e3, e⟩ := IOm.bind_eq_ok e
      simp only [IOm.pure_run, Prod.mk.injEq, Outcome.ok.injEq] at e
      obtain ⟨⟨rfl, -⟩, -⟩ := e
      obtain ⟨bs, -, k1, k2, k3, k4, k5, -, -⟩ := readOpsSeg_inv dbg _ _ _ _ _ _ _ _ _ e1
      have hl := lens_mask (fillAdds_inv _ _ _ _ e3).2
      have ht : totalLen k = totalLen l := by rw [totalLen, totalLen, hl]
      have hc' : c = h.outputSize := by simpa using hc
      have hlen : k.length = l.length := by simpa using congrArg List.length hl
      refine ⟨by rw [hlen, k2], ?_, fun hd => by rw [ht]; simpa using k5 hd, ?_⟩
      · rw [← hc', k4, ht]
        simp [UInt32.toNat_ofNat']
      · have hleg := opsEnc_legal k1
        intro op hop
        have hm := (fillAdds_inv _ _ _ _ e3).2
        have : maskAdd false op ∈ l.map (maskAdd false) := hm ▸ List.mem_map_of_mem hop
        obtain ⟨op', h1, h2⟩ := List.mem_map.1 this
        have h3 := hleg op' h1
        rcases op with _ | _ | _ <;> rcases op' with _ | _ | _ <;> simp [maskAdd] at h2
        · obtain ⟨rfl, rfl⟩ := h2; exact h3
        · obtain ⟨rfl, rfl, rfl⟩ := h2; exact h3
        · simp only [Legal] at h3 ⊢
          rw [← h2]; exact h3

end Smdiff
