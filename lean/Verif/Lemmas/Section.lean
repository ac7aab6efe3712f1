import Verif.Lemmas.Wire
/-!
# Helper lemmas: sections
-/
namespace Smdiff
open Spec

/-! ## Operation lists -/

theorem sizeEnc_lt {ty hd n} (h : SizeEnc ty hd n) : n ≤ 65535 := by
  cases h with
  | short => omega
  | mid v => have := UInt8.toNat_lt v; omega
  | long lo hi => have := UInt8.toNat_lt lo; have := UInt8.toNat_lt hi; omega

theorem opEnc_legal {V inl d o op bs d' o'} (h : OpEnc V inl d o op bs d' o') : Legal op := by
  cases h with
  | run b n h1 h2 => exact ⟨h1, h2⟩
  | add hd bs hs => exact sizeEnc_lt hs
  | copyD => trivial
  | copyO => trivial

theorem opsEnc_legal {V inl d o ops bs} (h : OpsEnc V inl d o ops bs) : ∀ op ∈ ops, Legal op := by
  induction h with
  | nil => simp
  | cons d o d' o' op ops bs bss h1 h2 ih =>
    intro x hx
    rcases List.mem_cons.mp hx with rfl | hx
    · exact opEnc_legal h1
    · exact ih x hx

theorem opLen_le (op : Op) (h : Legal op) : opLen op ≤ 65535 := by
  rcases op with ⟨b, n⟩ | ⟨s, a, n⟩ | bs
  · have := UInt8.toNat_lt n; simp only [opLen]; omega
  · have := UInt16.toNat_lt n; simp only [opLen]; omega
  · exact h

theorem totalLen_cons (op : Op) (ops : List Op) : totalLen (op :: ops) = opLen op + totalLen ops := by
  simp [totalLen]

theorem totalLen_append (a b : List Op) : totalLen (a ++ b) = totalLen a + totalLen b := by
  simp [totalLen]

theorem addBytes_cons (op : Op) (ops : List Op) : addBytes (op :: ops) = opAdd op ++ addBytes ops := by
  simp [addBytes]

theorem addBytes_append (a b : List Op) : addBytes (a ++ b) = addBytes a ++ addBytes b := by
  simp [addBytes]

theorem opAdd_le (op : Op) : (opAdd op).length ≤ opLen op := by
  rcases op with _ | _ | _ <;> simp [opAdd, opLen]

theorem addBytes_le (ops : List Op) : (addBytes ops).length ≤ totalLen ops := by
  induction ops with
  | nil => simp [addBytes]
  | cons op ops ih =>
    rw [addBytes_cons, totalLen_cons, List.length_append]
    have := opAdd_le op
    omega

theorem totalLen_bound (ops : List Op) (h : ∀ op ∈ ops, Legal op) :
    totalLen ops ≤ 65535 * ops.length := by
  induction ops with
  | nil => simp [totalLen]
  | cons op ops ih =>
    rw [totalLen_cons, List.length_cons]
    have h1 := opLen_le op (h op (by simp))
    have h2 := ih (fun o ho => h o (by simp [ho]))
    omega

theorem Spec.OpEnc.mono {V W : Bytes → Nat → Prop} (hVW : ∀ bs v, V bs v → W bs v)
    {inl d o op bs d' o'} (h : OpEnc V inl d o op bs d' o') : OpEnc W inl d o op bs d' o' := by
  cases h with
  | run b n h1 h2 => exact .run _ _ _ _ h1 h2
  | add hd bs hs => exact .add _ _ _ _ hs
  | copyD addr len hd vb delta hs hv hr => exact .copyD _ _ _ _ _ _ _ hs (hVW _ _ hv) hr
  | copyO addr len hd vb delta hs hv hr => exact .copyO _ _ _ _ _ _ _ hs (hVW _ _ hv) hr

theorem Spec.OpsEnc.mono {V W : Bytes → Nat → Prop} (hVW : ∀ bs v, V bs v → W bs v)
    {inl d o ops bs} (h : OpsEnc V inl d o ops bs) : OpsEnc W inl d o ops bs := by
  induction h with
  | nil d o => exact .nil d o
  | cons d o d' o' op ops bs bss h1 h2 ih => exact .cons d o d' o' op ops bs bss (h1.mono hVW) ih

/-! ## Checked addition -/

theorem addU32_ok (dbg : Bool) (a : UInt32) (n : UInt32) (h : dbg = true → a.toNat + n.toNat < 2 ^ 32) :
    addU32 dbg a n = .ok (UInt32.ofNat (a.toNat + n.toNat)) := by
  unfold addU32
  rw [if_neg]
  · congr 1
  · intro hc
    simp only [Bool.and_eq_true, decide_eq_true_eq] at hc
    have := h hc.1
    omega

theorem addU32_inv {dbg : Bool} {a n c : UInt32} (h : addU32 dbg a n = .ok c) :
    c = UInt32.ofNat (a.toNat + n.toNat) ∧ (dbg = true → a.toNat + n.toNat < 2 ^ 32) := by
  unfold addU32 at h
  split at h
  · simp at h
  · next hc =>
    simp only [Outcome.ok.injEq] at h
    constructor
    · rw [← h]
      apply UInt32.toNat_inj.mp
      rw [UInt32.toNat_add, UInt32.toNat_ofNat']
    · intro hb
      simp only [hb, Bool.true_and, decide_eq_true_eq] at hc
      omega

theorem oal32_toNat (op : Op) (h : Legal op) : op.oal.toUInt32.toNat = opLen op := by
  rw [UInt16.toNat_toUInt32, oal_toNat op h]

theorem ofNat32_add (a n : Nat) :
    UInt32.ofNat ((UInt32.ofNat a).toNat + n) = UInt32.ofNat (a + n) := by
  apply UInt32.toNat_inj.mp
  simp only [UInt32.toNat_ofNat']
  omega

theorem ofNat32_toNat (n : Nat) (h : n < 2 ^ 32) : (UInt32.ofNat n).toNat = n := by
  rw [UInt32.toNat_ofNat']; omega

/-! ## Interleaved sections -/

theorem readOpsInter_of_enc (dbg : Bool) {d o : UInt64} {ops : List Op} {bs : Bytes}
    (h : OpsEnc (VAcc dbg) true d o ops bs) (rest : Bytes) : ∀ (c : UInt32),
    (dbg = true → c.toNat + totalLen ops < 2 ^ 32) →
    readOpsInter dbg ops.length ⟨d, o⟩ c (bs ++ rest)
      = (.ok (ops, UInt32.ofNat (c.toNat + totalLen ops)), rest) := by
  induction h with
  | nil d o => intro c _; simp [readOpsInter, totalLen]
  | cons d o d' o' op ops bs bss h1 h2 ih =>
    intro c hc
    have hl := opEnc_legal h1
    rw [totalLen_cons] at hc ⊢
    have e1 := readOp_of_enc dbg true h1 (bss ++ rest)
    have em : maskAdd true op = op := by rcases op with _ | _ | _ <;> rfl
    rw [em] at e1
    have e2 := addU32_ok dbg c op.oal.toUInt32 (by
      intro hb; rw [oal32_toNat op hl]; have := hc hb; omega)
    rw [oal32_toNat op hl] at e2
    have hx : dbg = true → (UInt32.ofNat (c.toNat + opLen op)).toNat + totalLen ops < 2 ^ 32 := by
      intro hb; have := hc hb; rw [ofNat32_toNat _ (by omega)]; omega
    have e3 := ih (UInt32.ofNat (c.toNat + opLen op)) hx
    rw [ofNat32_add, Nat.add_assoc] at e3
    simp only [List.length_cons, readOpsInter, List.append_assoc]
    rw [IOm.bind_ok e1]
    simp only [IOm.bind_run, IOm.lift_run, e2, e3, IOm.pure_run]

theorem readOpsInter_inv (dbg : Bool) : ∀ (n : Nat) (a : Addrs) (c : UInt32) (s rest : Bytes)
    (ops : List Op) (c' : UInt32),
    readOpsInter dbg n a c s = (.ok (ops, c'), rest) →
    ∃ bs, s = bs ++ rest ∧ OpsEnc (VRead dbg) true a.d a.o ops bs ∧ ops.length = n ∧
      c' = UInt32.ofNat (c.toNat + totalLen ops) ∧ (dbg = true → c.toNat + totalLen ops < 2 ^ 32) := by
  intro n
  induction n with
  | zero =>
    intro a c s rest ops c' h
    simp only [readOpsInter, IOm.pure_run, Prod.mk.injEq, Outcome.ok.injEq] at h
    obtain ⟨⟨rfl, rfl⟩, rfl⟩ := h
    refine ⟨[], rfl, .nil _ _, rfl, ?_, ?_⟩
    · simp [totalLen]
    · intro _; have := UInt32.toNat_lt c; simp [totalLen]; omega
  | succ n ih =>
    intro a c s rest ops c' h
    simp only [readOpsInter] at h
    obtain ⟨⟨op, a'⟩, s1, h1, h⟩ := IOm.bind_eq_ok h
    obtain ⟨c1, s2, h2, h⟩ := IOm.bind_eq_ok h
    obtain ⟨⟨ops', c2⟩, s3, h3, h⟩ := IOm.bind_eq_ok h
    simp only [IOm.pure_run, Prod.mk.injEq, Outcome.ok.injEq] at h
    obtain ⟨⟨rfl, rfl⟩, rfl⟩ := h
    simp only [IOm.lift_run, Prod.mk.injEq] at h2
    obtain ⟨h2, rfl⟩ := h2
    obtain ⟨bs, e1, e2, _⟩ := readOp_inv dbg true h1
    obtain ⟨e3, e4⟩ := addU32_inv h2
    obtain ⟨bss, f1, f2, f3, f4, f5⟩ := ih _ _ _ _ _ _ h3
    have hl := opEnc_legal e2
    rw [oal32_toNat op hl] at e3 e4
    refine ⟨bs ++ bss, by rw [e1, f1, List.append_assoc], .cons _ _ _ _ op ops' bs bss e2 f2,
      by simp [f3], ?_, ?_⟩
    · rw [f4, e3, ofNat32_add, totalLen_cons, Nat.add_assoc]
    · intro hb
      have h4 := e4 hb
      have h5 := f5 hb
      rw [e3, ofNat32_toNat _ h4] at h5
      rw [totalLen_cons]; omega

/-! ## Segregated sections -/

theorem opLen_mask (op : Op) : opLen (maskAdd false op) = opLen op := by
  rcases op with _ | _ | _ <;> simp [maskAdd, opLen]

theorem totalLen_mask (ops : List Op) : totalLen (ops.map (maskAdd false)) = totalLen ops := by
  induction ops with
  | nil => rfl
  | cons op ops ih => rw [List.map_cons, totalLen_cons, totalLen_cons, ih, opLen_mask]

theorem addLen_mask (op : Op) : (opAdd (maskAdd false op)).length = (opAdd op).length := by
  rcases op with _ | _ | _ <;> simp [maskAdd, opAdd]

theorem maskAdd_isAdd (op : Op) : (maskAdd false op).isAdd = op.isAdd := by
  rcases op with _ | _ | _ <;> simp [maskAdd, Op.isAdd]

theorem maskAdd_oal (op : Op) : (maskAdd false op).oal = op.oal := by
  rcases op with _ | _ | _ <;> simp [maskAdd, Op.oal]

theorem isAdd_len (op : Op) : op.isAdd = true → (opAdd op).length = opLen op := by
  rcases op with _ | _ | _ <;> simp [Op.isAdd, opAdd, opLen]

theorem not_isAdd_len (op : Op) : op.isAdd = false → (opAdd op).length = 0 := by
  rcases op with _ | _ | _ <;> simp [Op.isAdd, opAdd]

theorem readOpsSeg_of_enc (dbg : Bool) {d o : UInt64} {ops : List Op} {bs : Bytes}
    (h : OpsEnc (VAcc dbg) false d o ops bs) (rest : Bytes) : ∀ (c m : UInt32),
    (dbg = true → c.toNat + totalLen ops < 2 ^ 32) →
    (dbg = true → m.toNat + (addBytes ops).length < 2 ^ 32) →
    readOpsSeg dbg ops.length ⟨d, o⟩ c m (bs ++ rest)
      = (.ok (ops.map (maskAdd false), UInt32.ofNat (c.toNat + totalLen ops),
          UInt32.ofNat (m.toNat + (addBytes ops).length)), rest) := by
  induction h with
  | nil d o => intro c m _ _; simp [readOpsSeg, totalLen, addBytes]
  | cons d o d' o' op ops bs bss h1 h2 ih =>
    intro c m hc hm
    have hl := opEnc_legal h1
    rw [totalLen_cons] at hc ⊢
    rw [addBytes_cons, List.length_append] at hm ⊢
    have e1 := readOp_of_enc dbg false h1 (bss ++ rest)
    have e2 := addU32_ok dbg c op.oal.toUInt32 (by
      intro hb; rw [oal32_toNat op hl]; have := hc hb; omega)
    rw [oal32_toNat op hl] at e2
    have hx : dbg = true → (UInt32.ofNat (c.toNat + opLen op)).toNat + totalLen ops < 2 ^ 32 := by
      intro hb; have := hc hb; rw [ofNat32_toNat _ (by omega)]; omega
    have e4 : op.isAdd = true →
        addU32 dbg m op.oal.toUInt32 = .ok (UInt32.ofNat (m.toNat + (opAdd op).length)) := by
      intro ha
      have := isAdd_len op ha
      rw [addU32_ok dbg m op.oal.toUInt32 (by
        intro hb; rw [oal32_toNat op hl]; have := hm hb; omega), oal32_toNat op hl, this]
    have e5 : op.isAdd = false → m = UInt32.ofNat (m.toNat + (opAdd op).length) := by
      intro ha
      rw [not_isAdd_len op ha]; simp
    have hy : dbg = true → (UInt32.ofNat (m.toNat + (opAdd op).length)).toNat
        + (addBytes ops).length < 2 ^ 32 := by
      intro hb; have := hm hb; rw [ofNat32_toNat _ (by omega)]; omega
    have e3 := ih _ _ hx hy
    rw [ofNat32_add, ofNat32_add, Nat.add_assoc, Nat.add_assoc] at e3
    simp only [List.length_cons, readOpsSeg, List.append_assoc]
    rw [IOm.bind_ok e1]
    simp only [maskAdd_oal, maskAdd_isAdd]
    simp only [IOm.bind_run, IOm.lift_run, e2]
    cases ha : op.isAdd
    · rw [← e5 ha] at e3
      simp only [Bool.false_eq_true, if_false, IOm.bind_run, IOm.pure_run, e3, List.map_cons]
    · simp only [if_true, IOm.bind_run, IOm.lift_run, IOm.pure_run, e4 ha, e3, List.map_cons]

theorem fillAdds_mask (ops : List Op) (rest : Bytes) :
    fillAdds (ops.map (maskAdd false)) (addBytes ops ++ rest) = (.ok ops, rest) := by
  induction ops with
  | nil => simp [fillAdds, addBytes]
  | cons op ops ih =>
    rw [addBytes_cons, List.map_cons, List.append_assoc]
    rcases op with _ | _ | bs
    · simp [maskAdd, fillAdds, IOm.bind_run, opAdd, ih]
    · simp [maskAdd, fillAdds, IOm.bind_run, opAdd, ih]
    · simp [maskAdd, fillAdds, IOm.bind_run, opAdd, ih, readExact]

theorem fillAdds_inv : ∀ (mops : List Op) (s rest : Bytes) (ops : List Op),
    fillAdds mops s = (.ok ops, rest) →
    s = addBytes ops ++ rest ∧ ops.map (maskAdd false) = mops.map (maskAdd false) := by
  intro mops
  induction mops with
  | nil =>
    intro s rest ops h
    simp only [fillAdds, IOm.pure_run, Prod.mk.injEq, Outcome.ok.injEq] at h
    obtain ⟨rfl, rfl⟩ := h
    simp [addBytes]
  | cons op mops ih =>
    intro s rest ops h
    rcases op with _ | _ | bs
    · simp only [fillAdds] at h
      obtain ⟨ops', s1, h1, h2⟩ := IOm.bind_eq_ok h
      simp only [IOm.pure_run, Prod.mk.injEq, Outcome.ok.injEq] at h2
      obtain ⟨rfl, rfl⟩ := h2
      obtain ⟨e1, e2⟩ := ih _ _ _ h1
      exact ⟨by simp [addBytes_cons, opAdd, e1], by simp [e2]⟩
    · simp only [fillAdds] at h
      obtain ⟨ops', s1, h1, h2⟩ := IOm.bind_eq_ok h
      simp only [IOm.pure_run, Prod.mk.injEq, Outcome.ok.injEq] at h2
      obtain ⟨rfl, rfl⟩ := h2
      obtain ⟨e1, e2⟩ := ih _ _ _ h1
      exact ⟨by simp [addBytes_cons, opAdd, e1], by simp [e2]⟩
    · simp only [fillAdds] at h
      obtain ⟨bytes, s0, h0, h⟩ := IOm.bind_eq_ok h
      obtain ⟨ops', s1, h1, h2⟩ := IOm.bind_eq_ok h
      simp only [IOm.pure_run, Prod.mk.injEq, Outcome.ok.injEq] at h2
      obtain ⟨rfl, rfl⟩ := h2
      obtain ⟨e1, e2⟩ := ih _ _ _ h1
      simp only [readExact] at h0
      split at h0
      · next hle =>
        simp only [Prod.mk.injEq, Outcome.ok.injEq] at h0
        obtain ⟨rfl, rfl⟩ := h0
        constructor
        · rw [addBytes_cons, List.append_assoc, ← e1]; simp [opAdd]
        · simp [e2, maskAdd, Nat.min_eq_left hle]
      · simp at h0

theorem opEnc_mask {V d o op op' bs d' o'} (h : OpEnc V false d o op bs d' o')
    (hm : maskAdd false op' = maskAdd false op) : OpEnc V false d o op' bs d' o' := by
  cases h with
  | run b n h1 h2 =>
    have : op' = .run b n := by
      rcases op' with _ | _ | _ <;> simp_all [maskAdd]
    subst this; exact .run _ _ _ _ h1 h2
  | add hd bs hs =>
    rcases op' with _ | _ | bs'
    · simp [maskAdd] at hm
    · simp [maskAdd] at hm
    · have : bs'.length = bs.length := by
        simp only [maskAdd, Bool.false_eq_true, if_false, Op.add.injEq] at hm
        have := congrArg List.length hm; simpa using this
      have := OpEnc.add (V := V) (inl := false) d o hd bs' (this ▸ hs)
      simpa using this
  | copyD addr len hd vb delta hs hv hr =>
    have : op' = .copy .dict d' len := by
      rcases op' with _ | _ | _ <;> simp_all [maskAdd]
    subst this; exact .copyD _ _ _ _ _ _ _ hs hv hr
  | copyO addr len hd vb delta hs hv hr =>
    have : op' = .copy .output o' len := by
      rcases op' with _ | _ | _ <;> simp_all [maskAdd]
    subst this; exact .copyO _ _ _ _ _ _ _ hs hv hr

theorem opsEnc_mask {V d o ops bs} (h : OpsEnc V false d o ops bs) : ∀ ops' : List Op,
    ops'.map (maskAdd false) = ops.map (maskAdd false) → OpsEnc V false d o ops' bs := by
  induction h with
  | nil d o =>
    intro ops' he
    have : ops' = [] := by simpa using he
    subst this; exact .nil d o
  | cons d o d' o' op ops bs bss h1 h2 ih =>
    intro ops' he
    match ops', he with
    | [], he => simp at he
    | op' :: ops', he =>
      simp only [List.map_cons, List.cons.injEq] at he
      exact .cons _ _ _ _ op' ops' bs bss (opEnc_mask h1 he.1) (ih ops' he.2)

theorem readOpsSeg_inv (dbg : Bool) : ∀ (n : Nat) (a : Addrs) (c m : UInt32) (s rest : Bytes)
    (ops : List Op) (c' m' : UInt32),
    readOpsSeg dbg n a c m s = (.ok (ops, c', m'), rest) →
    ∃ bs, s = bs ++ rest ∧ OpsEnc (VRead dbg) false a.d a.o ops bs ∧ ops.length = n ∧
      ops.map (maskAdd false) = ops ∧
      c' = UInt32.ofNat (c.toNat + totalLen ops) ∧ (dbg = true → c.toNat + totalLen ops < 2 ^ 32) ∧
      m' = UInt32.ofNat (m.toNat + (addBytes ops).length) ∧
      (dbg = true → m.toNat + (addBytes ops).length < 2 ^ 32) := by
  intro n
  induction n with
  | zero =>
    intro a c m s rest ops c' m' h
    simp only [readOpsSeg, IOm.pure_run, Prod.mk.injEq, Outcome.ok.injEq] at h
    obtain ⟨⟨rfl, rfl, rfl⟩, rfl⟩ := h
    refine ⟨[], rfl, .nil _ _, rfl, rfl, ?_, ?_, ?_, ?_⟩
    · simp [totalLen]
    · intro _; have := UInt32.toNat_lt c; simp [totalLen]; omega
    · simp [addBytes]
    · intro _; have := UInt32.toNat_lt m; simp [addBytes]; omega
  | succ n ih =>
    intro a c m s rest ops c' m' h
    simp only [readOpsSeg] at h
    obtain ⟨⟨op, a'⟩, s1, h1, h⟩ := IOm.bind_eq_ok h
    obtain ⟨c1, s2, h2, h⟩ := IOm.bind_eq_ok h
    obtain ⟨bs, e1, e2, em⟩ := readOp_inv dbg false h1
    have em := em rfl
    have hl := opEnc_legal e2
    simp only [IOm.lift_run, Prod.mk.injEq] at h2
    obtain ⟨h2, rfl⟩ := h2
    obtain ⟨e3, e4⟩ := addU32_inv h2
    rw [oal32_toNat op hl] at e3 e4
    have hstep : ∃ m1, m1 = UInt32.ofNat (m.toNat + (opAdd op).length) ∧
        (dbg = true → m.toNat + (opAdd op).length < 2 ^ 32) ∧
        (readOpsSeg dbg n a' c1 m1 >>= fun x => pure (op :: x.1, x.2.1, x.2.2)) s1
          = (.ok (ops, c', m'), rest) := by
      cases ha : op.isAdd
      · have hz := not_isAdd_len op ha
        simp only [ha, Bool.false_eq_true, if_false] at h
        refine ⟨m, by rw [hz]; simp, ?_, ?_⟩
        · intro _; have := UInt32.toNat_lt m; omega
        · exact h
      · have hz := isAdd_len op ha
        simp only [ha, if_true] at h
        obtain ⟨m1, s3, h3, h⟩ := IOm.bind_eq_ok h
        simp only [IOm.lift_run, Prod.mk.injEq] at h3
        obtain ⟨h3, rfl⟩ := h3
        obtain ⟨e5, e6⟩ := addU32_inv h3
        rw [oal32_toNat op hl, ← hz] at e5 e6
        exact ⟨m1, e5, e6, h⟩
    obtain ⟨m1, g1, g2, h⟩ := hstep
    obtain ⟨⟨ops', c2, m2⟩, s3, h3, h⟩ := IOm.bind_eq_ok h
    simp only [IOm.pure_run, Prod.mk.injEq, Outcome.ok.injEq] at h
    obtain ⟨⟨rfl, rfl, rfl⟩, rfl⟩ := h
    obtain ⟨bss, f1, f2, f3, f4, f5, f6, f7, f8⟩ := ih _ _ _ _ _ _ _ _ h3
    refine ⟨bs ++ bss, by rw [e1, f1, List.append_assoc], .cons _ _ _ _ op ops' bs bss e2 f2,
      by simp [f3], by simp [em, f4], ?_, ?_, ?_, ?_⟩
    · rw [f5, e3, ofNat32_add, totalLen_cons, Nat.add_assoc]
    · intro hb
      have h4 := e4 hb
      have h5 := f6 hb
      rw [e3, ofNat32_toNat _ h4] at h5
      rw [totalLen_cons]; omega
    · rw [f7, g1, ofNat32_add, addBytes_cons, List.length_append, Nat.add_assoc]
    · intro hb
      have h4 := g2 hb
      have h5 := f8 hb
      rw [g1, ofNat32_toNat _ h4] at h5
      rw [addBytes_cons, List.length_append]; omega

end Smdiff
