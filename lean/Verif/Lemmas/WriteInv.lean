import Verif.Lemmas.Header
/-!
# Helper lemmas: what a successful write tells, failing writers, illegal runs
-/
namespace Smdiff
open Spec

/-- A Run that the format cannot express. -/
def BadRun : Op → Prop
  | .run _ n => n.toNat = 0 ∨ 62 < n.toNat
  | _ => False

theorem writeOpByteAndSize_bad (op : Op) (h : BadRun op) (w : Bytes) :
    writeOpByteAndSize op w = (.panic, w) := by
  rcases op with ⟨b, n⟩ | _ | _
  · simp only [BadRun] at h
    have hn := UInt8.toNat_lt n
    unfold writeOpByteAndSize
    have ho : (Op.run b n).oal.toNat = n.toNat := by simp [Op.oal]
    have hle : ((Op.run b n).oal ≤ 62) ↔ n.toNat ≤ 62 := by rw [UInt16.le_iff_toNat_le, ho]; rfl
    rcases sizeRoutine_cases (Op.run b n).oal with ⟨h1, h2, hs⟩ | ⟨h1, hs⟩ | ⟨h1, hs⟩
    · omega
    · have : ¬ (Op.run b n).oal ≤ 62 := fun hc => by have := hle.1 hc; omega
      simp [IOm.bind_run, Op.isRun, this, Outcome.assert]
    · by_cases hc : (Op.run b n).oal ≤ 62
      · simp [IOm.bind_run, Op.isRun, hc, Outcome.assert, hs]
      · simp [IOm.bind_run, Op.isRun, hc, Outcome.assert]
  · exact h.elim
  · exact h.elim

theorem legal_or_bad (op : Op) (ha : ∀ bs, op = .add bs → bs.length ≤ 65535) : Legal op ∨ BadRun op := by
  rcases op with ⟨b, n⟩ | _ | bs
  · simp only [Legal, BadRun]; omega
  · exact .inl trivial
  · exact .inl (ha bs rfl)

theorem diffToI64_min {dbg : Bool} {cur addr : UInt64} {d : BitVec 64}
    (h : diffAddressesToI64 dbg cur addr = .ok d) : dbg = true → cur.toNat ≠ addr.toNat + 2 ^ 63 := by
  intro hb hc
  have hcl := UInt64.toNat_lt cur
  unfold diffAddressesToI64 at h
  rw [if_neg (fun hgt => by have := UInt64.lt_iff_toNat_lt.mp hgt; omega), if_pos] at h
  · simp at h
  · simp only [hb, Bool.true_and, beq_iff_eq]
    apply BitVec.eq_of_toNat_eq
    rw [I64_MIN_toNat]
    show (cur - addr).toNat = _
    rw [UInt64.toNat_sub]; omega

theorem writeOpAddtl_inv {dbg : Bool} {op : Op} {a a' : Addrs} {w w' : Bytes}
    (h : writeOpAddtl dbg op a w = (.ok a', w')) : dbg = true → NoMinDelta a op := by
  intro hb
  rcases op with _ | ⟨_ | _, addr, n⟩ | _
  · trivial
  · simp only [writeOpAddtl] at h
    obtain ⟨d, w1, h1, _⟩ := IOm.bind_eq_ok h
    simp only [IOm.lift_run, Prod.mk.injEq] at h1
    exact diffToI64_min h1.1 hb
  · simp only [writeOpAddtl] at h
    obtain ⟨d, w1, h1, _⟩ := IOm.bind_eq_ok h
    simp only [IOm.lift_run, Prod.mk.injEq] at h1
    exact diffToI64_min h1.1 hb
  · trivial

theorem writeOpStep_inv {dbg : Bool} {fmt : Format} {acc acc' : WriteAcc} {op : Op} {w w' : Bytes}
    (h : writeOpStep dbg fmt acc op w = (.ok acc', w')) :
    ¬ BadRun op ∧ (dbg = true → NoMinDelta acc.addrs op) := by
  unfold writeOpStep at h
  simp only at h
  obtain ⟨u, w1, h1, h⟩ := IOm.bind_eq_ok h
  constructor
  · intro hb
    rw [writeOpByteAndSize_bad op hb] at h1
    simp at h1
  · cases fmt
    · simp only at h
      obtain ⟨a, w2, h2, _⟩ := IOm.bind_eq_ok h
      exact writeOpAddtl_inv h2
    · rcases op with _ | _ | _
      · simp only at h
        obtain ⟨a, w2, h2, _⟩ := IOm.bind_eq_ok h
        exact writeOpAddtl_inv h2
      · simp only at h
        obtain ⟨a, w2, h2, _⟩ := IOm.bind_eq_ok h
        exact writeOpAddtl_inv h2
      · intro _; trivial

theorem writeOpAddtl_next {dbg : Bool} {op : Op} {a a' : Addrs} {w w' : Bytes}
    (h : writeOpAddtl dbg op a w = (.ok a', w')) : a' = a.next op := by
  obtain ⟨bs, h1, _⟩ := writeOpAddtl_spec dbg op a (writeOpAddtl_inv h)
  rw [h1] at h
  simp only [Prod.mk.injEq, Outcome.ok.injEq] at h
  exact h.1.symm

theorem writeOpStep_addrs {dbg : Bool} {fmt : Format} {acc acc' : WriteAcc} {op : Op} {w w' : Bytes}
    (h : writeOpStep dbg fmt acc op w = (.ok acc', w')) : acc'.addrs = acc.addrs.next op := by
  unfold writeOpStep at h
  simp only at h
  obtain ⟨u, w1, h1, h⟩ := IOm.bind_eq_ok h
  cases fmt
  · simp only at h
    obtain ⟨a, w2, h2, h⟩ := IOm.bind_eq_ok h
    simp only [IOm.pure_run, Prod.mk.injEq, Outcome.ok.injEq] at h
    rw [← h.1]; exact writeOpAddtl_next h2
  · rcases op with _ | _ | _
    · simp only at h
      obtain ⟨a, w2, h2, h⟩ := IOm.bind_eq_ok h
      simp only [IOm.pure_run, Prod.mk.injEq, Outcome.ok.injEq] at h
      rw [← h.1]; exact writeOpAddtl_next h2
    · simp only at h
      obtain ⟨a, w2, h2, h⟩ := IOm.bind_eq_ok h
      simp only [IOm.pure_run, Prod.mk.injEq, Outcome.ok.injEq] at h
      rw [← h.1]; exact writeOpAddtl_next h2
    · simp only [IOm.pure_run, Prod.mk.injEq, Outcome.ok.injEq] at h
      rw [← h.1]; rfl

theorem writeOpsLoop_inv {dbg : Bool} {fmt : Format} (ops : List Op) : ∀ {acc acc' : WriteAcc}
    {w w' : Bytes}, writeOpsLoop dbg fmt ops acc w = (.ok acc', w') →
    (∀ op ∈ ops, ¬ BadRun op) ∧ (dbg = true → NoMinDeltas acc.addrs ops) := by
  induction ops with
  | nil => intro acc acc' w w' _; exact ⟨by simp, fun _ => trivial⟩
  | cons op ops ih =>
    intro acc acc' w w' h
    simp only [writeOpsLoop] at h
    obtain ⟨acc1, w1, h1, h⟩ := IOm.bind_eq_ok h
    obtain ⟨e1, e2⟩ := writeOpStep_inv h1
    obtain ⟨e3, e4⟩ := ih h
    rw [writeOpStep_addrs h1] at e4
    refine ⟨?_, fun hb => ⟨e2 hb, e4 hb⟩⟩
    intro o ho
    rcases List.mem_cons.mp ho with rfl | ho
    · exact e1
    · exact e3 o ho

theorem writeOps_inv {dbg : Bool} {ops : List Op} {h : SectionHeader} {w w' : Bytes}
    (he : writeOps dbg ops h w = (.ok (), w')) :
    (∀ op ∈ ops, ¬ BadRun op) ∧ (dbg = true → NoMinDeltas .zero ops) := by
  unfold writeOps at he
  split at he
  · simp at he
  split at he
  · simp at he
  obtain ⟨acc, w1, h1, he⟩ := IOm.bind_eq_ok he
  exact writeOpsLoop_inv ops h1

/-! ## Panicking on an illegal run -/

theorem writeOpsLoop_bad (dbg : Bool) (fmt : Format) (pre post : List Op) (bad : Op) (acc : WriteAcc)
    (hl : ∀ op ∈ pre, Legal op) (hm : dbg = true → NoMinDeltas acc.addrs pre) (hb : BadRun bad) :
    ∃ bs, OpsEnc UVar (fmt = .interleaved) acc.addrs.d acc.addrs.o pre bs ∧
      ∀ w : Bytes, writeOpsLoop dbg fmt (pre ++ bad :: post) acc w = (.panic, w ++ bs) := by
  induction pre generalizing acc with
  | nil =>
    refine ⟨[], .nil _ _, fun w => ?_⟩
    simp [writeOpsLoop, writeOpStep, IOm.bind_run, writeOpByteAndSize_bad bad hb]
  | cons op pre ih =>
    obtain ⟨bs, h1, h2⟩ := writeOpStep_spec dbg fmt acc op (hl op (by simp)) (fun h => (hm h).1)
    obtain ⟨bss, h3, h4⟩ := ih (acc.next fmt op) (fun o ho => hl o (by simp [ho])) (fun h => (hm h).2)
    refine ⟨bs ++ bss, .cons _ _ _ _ op pre bs bss h1 h3, fun w => ?_⟩
    simp [writeOpsLoop, IOm.bind_run, h2, h4]

/-! ## Failing writers -/

/-- `y` on a writer with limited room does what `x` does on a `Vec`, until the room is used up. -/
def Sim {α : Type} (x : IOm Bytes α) (y : IOm LimitedWriter α) : Prop :=
  ∃ r bs, (∀ w, x w = (r, w ++ bs)) ∧
    ∀ out room, y ⟨out, room⟩ =
      if bs.length ≤ room then (r, ⟨out ++ bs, room - bs.length⟩)
      else (.err .writeFail, ⟨out ++ bs.take room, 0⟩)

/-- On a `Vec`, only appends. -/
theorem Sim.appends {α : Type} {x : IOm Bytes α} {y : IOm LimitedWriter α} (h : Sim x y) {w w' : Bytes} {o : Outcome α}
    (e : x w = (o, w')) : ∃ q, w' = w ++ q := by
  obtain ⟨r, bs, h1, -⟩ := h
  rw [h1 w] at e
  cases e
  exact ⟨bs, rfl⟩

theorem sim_pure {α : Type} (a : α) : Sim (pure a) (pure a) :=
  ⟨.ok a, [], by simp, by simp⟩
theorem sim_throw {α : Type} (e : Err) : Sim (IOm.throw e : IOm Bytes α) (IOm.throw e) :=
  ⟨.err e, [], by simp, by simp⟩
theorem sim_lift {α : Type} (o : Outcome α) : Sim (IOm.lift o : IOm Bytes α) (IOm.lift o) :=
  ⟨o, [], by simp, by simp⟩
theorem sim_writeAll (bs : Bytes) : Sim (Writer.writeAll bs) (Writer.writeAll bs) :=
  ⟨.ok (), bs, fun _ => rfl, fun _ _ => rfl⟩
theorem sim_bind {α β : Type} {x : IOm Bytes α} {y : IOm LimitedWriter α} {f : α → IOm Bytes β}
    {g : α → IOm LimitedWriter β} (h : Sim x y) (hf : ∀ a, Sim (f a) (g a)) :
    Sim (x >>= f) (y >>= g) := by
  obtain ⟨r, bs, h1, h2⟩ := h
  cases r with
  | ok a =>
    obtain ⟨r', bs', h3, h4⟩ := hf a
    refine ⟨r', bs ++ bs', ?_, ?_⟩
    · intro w; simp [IOm.bind_run, h1, h3]
    · intro out room
      rw [IOm.bind_run, h2]
      by_cases hb : bs.length ≤ room
      · simp only [hb, if_true, h4, List.length_append]
        by_cases hb' : bs'.length ≤ room - bs.length
        · rw [if_pos hb', if_pos (by omega)]; simp; omega
        · rw [if_neg hb', if_neg (by omega)]
          rw [List.take_append, List.take_of_length_le hb]
          simp
      · simp only [hb, if_false, List.length_append]
        rw [if_neg (by omega), List.take_append_of_le_length (by omega)]
  | err e =>
    refine ⟨.err e, bs, ?_, ?_⟩
    · intro w; simp [IOm.bind_run, h1]
    · intro out room; rw [IOm.bind_run, h2]; by_cases hb : bs.length ≤ room <;> simp [hb]
  | panic =>
    refine ⟨.panic, bs, ?_, ?_⟩
    · intro w; simp [IOm.bind_run, h1]
    · intro out room; rw [IOm.bind_run, h2]; by_cases hb : bs.length ≤ room <;> simp [hb]
  | diverge =>
    refine ⟨.diverge, bs, ?_, ?_⟩
    · intro w; simp [IOm.bind_run, h1]
    · intro out room; rw [IOm.bind_run, h2]; by_cases hb : bs.length ≤ room <;> simp [hb]

theorem sim_writeSectionHeader (dbg : Bool) (h : SectionHeader) :
    Sim (writeSectionHeader dbg h) (writeSectionHeader dbg h) := by
  refine sim_bind (sim_writeAll _) fun _ => sim_bind (sim_writeAll _) fun _ => ?_
  split
  · exact sim_bind (sim_writeAll _) fun _ => sim_bind (sim_lift _) fun _ => sim_writeAll _
  · exact sim_bind (sim_pure _) fun _ => sim_writeAll _

theorem sim_writeOpByteAndSize (op : Op) : Sim (writeOpByteAndSize op) (writeOpByteAndSize op) := by
  refine sim_bind (sim_lift _) fun _ => ?_
  split
  · exact sim_writeAll _
  · exact sim_bind (sim_lift _) fun _ => sim_bind (sim_writeAll _) fun _ => sim_writeAll _
  · exact sim_bind (sim_lift _) fun _ => sim_bind (sim_writeAll _) fun _ => sim_writeAll _

theorem sim_writeOpAddtl (dbg : Bool) (op : Op) (a : Addrs) :
    Sim (writeOpAddtl dbg op a) (writeOpAddtl dbg op a) := by
  rcases op with _ | ⟨_ | _, _, _⟩ | _
  · exact sim_bind (sim_writeAll _) fun _ => sim_pure _
  · exact sim_bind (sim_lift _) fun _ => sim_bind (sim_writeAll _) fun _ => sim_pure _
  · exact sim_bind (sim_lift _) fun _ => sim_bind (sim_writeAll _) fun _ => sim_pure _
  · exact sim_bind (sim_writeAll _) fun _ => sim_pure _

theorem sim_writeOpStep (dbg : Bool) (fmt : Format) (acc : WriteAcc) (op : Op) :
    Sim (writeOpStep dbg fmt acc op) (writeOpStep dbg fmt acc op) := by
  unfold writeOpStep
  simp only
  refine sim_bind (sim_writeOpByteAndSize op) fun _ => ?_
  split
  · exact sim_bind (sim_writeOpAddtl _ _ _) fun _ => sim_pure _
  · exact sim_pure _
  · exact sim_bind (sim_writeOpAddtl _ _ _) fun _ => sim_pure _

theorem sim_writeOpsLoop (dbg : Bool) (fmt : Format) (ops : List Op) : ∀ acc,
    Sim (writeOpsLoop dbg fmt ops acc) (writeOpsLoop dbg fmt ops acc) := by
  induction ops with
  | nil => intro acc; exact sim_pure _
  | cons op ops ih => intro acc; exact sim_bind (sim_writeOpStep _ _ _ _) fun _ => ih _

theorem sim_writeSlices (ss : List Bytes) : Sim (writeSlices ss) (writeSlices ss) := by
  induction ss with
  | nil => exact sim_pure _
  | cons s ss ih => exact sim_bind (sim_writeAll _) fun _ => ih

theorem sim_writeOps (dbg : Bool) (ops : List Op) (h : SectionHeader) :
    Sim (writeOps dbg ops h) (writeOps dbg ops h) := by
  unfold writeOps
  split
  · exact sim_throw _
  split
  · exact sim_throw _
  refine sim_bind (sim_writeOpsLoop _ _ _ _) fun acc => ?_
  split
  · refine sim_bind (sim_writeSlices _) fun _ => ?_
    split
    · exact sim_throw _
    split
    · exact sim_throw _
    · exact sim_pure _
  · split
    · exact sim_throw _
    · exact sim_pure _

/-! ## Far jumps -/

/-- The copy address is exactly `2^63` away from the last one: the one distance a debug build cannot
handle (it never occurs for addresses below `2^63`). -/
def FarJump (a : Addrs) : Op → Prop
  | .copy .dict addr _ => a.d.toNat = addr.toNat + 2 ^ 63 ∨ addr.toNat = a.d.toNat + 2 ^ 63
  | .copy .output addr _ => a.o.toNat = addr.toNat + 2 ^ 63 ∨ addr.toNat = a.o.toNat + 2 ^ 63
  | _ => False

/-- No operation of the list is a far jump. -/
def NoFars : Addrs → List Op → Prop
  | _, [] => True
  | a, op :: ops => ¬ FarJump a op ∧ NoFars (a.next op) ops

theorem noFars_iff (ops : List Op) : ∀ a : Addrs, NoFars a ops ↔ NoFarJumps a.d a.o ops := by
  induction ops with
  | nil => intro a; exact Iff.rfl
  | cons op ops ih =>
    intro a
    rcases op with _ | ⟨_ | _, addr, n⟩ | _ <;>
      simp [NoFars, NoFarJumps, FarJump, FarApart, ih, Addrs.next]

theorem noFars_of_below (ops : List Op) : ∀ a : Addrs, a.d.toNat < 2 ^ 63 → a.o.toNat < 2 ^ 63 →
    (∀ op ∈ ops, AddrsBelow63 op) → NoFars a ops := by
  induction ops with
  | nil => intro a _ _ _; trivial
  | cons op ops ih =>
    intro a h1 h2 h
    have h0 := h op (by simp)
    have h3 : ∀ op ∈ ops, AddrsBelow63 op := fun o ho => h o (by simp [ho])
    rcases op with _ | ⟨_ | _, addr, n⟩ | _
    · exact ⟨id, ih _ h1 h2 h3⟩
    · simp only [AddrsBelow63] at h0
      exact ⟨by simp only [FarJump]; omega, ih _ h0 h2 h3⟩
    · simp only [AddrsBelow63] at h0
      exact ⟨by simp only [FarJump]; omega, ih _ h1 h0 h3⟩
    · exact ⟨id, ih _ h1 h2 h3⟩

theorem noMin_of_noFar {a : Addrs} {op : Op} (h : ¬ FarJump a op) : NoMinDelta a op := by
  rcases op with _ | ⟨_ | _, addr, n⟩ | _
  · trivial
  · simp only [FarJump] at h; simp only [NoMinDelta]; omega
  · simp only [FarJump] at h; simp only [NoMinDelta]; omega
  · trivial

theorem noMins_of_noFars (ops : List Op) : ∀ a, NoFars a ops → NoMinDeltas a ops := by
  induction ops with
  | nil => intro a _; trivial
  | cons op ops ih => intro a h; exact ⟨noMin_of_noFar h.1, ih _ h.2⟩

theorem reaches_min {last addr : UInt64} (h : Reaches last (-2 ^ 63) addr) :
    last.toNat = addr.toNat + 2 ^ 63 ∨ addr.toNat = last.toNat + 2 ^ 63 := by
  have h1 := h.2.2
  have := UInt64.toNat_lt last
  have := UInt64.toNat_lt addr
  omega

theorem zigzag_max {d : Int} (h : zigzag d = 2 ^ 64 - 1) : d = -2 ^ 63 := by
  apply zigzag_inj; rw [h, zigzag_min]

theorem opEnc_acc {inl d o op bs d' o'} (dbg : Bool) (h : OpEnc UVar inl d o op bs d' o')
    (hf : dbg = true → ¬ FarJump ⟨d, o⟩ op) : OpEnc (VAcc dbg) inl d o op bs d' o' := by
  cases h with
  | run b n h1 h2 => exact .run _ _ _ _ h1 h2
  | add hd bs hs => exact .add _ _ _ _ hs
  | copyD addr len hd vb delta hs hv hr =>
    refine .copyD _ _ _ _ _ _ delta hs ⟨UVar.mod hv, fun hb hc => hf hb ?_⟩ hr
    have := zigzag_max hc
    subst this
    exact reaches_min hr
  | copyO addr len hd vb delta hs hv hr =>
    refine .copyO _ _ _ _ _ _ delta hs ⟨UVar.mod hv, fun hb hc => hf hb ?_⟩ hr
    have := zigzag_max hc
    subst this
    exact reaches_min hr

theorem opEnc_next {V inl d o op bs d' o'} (h : OpEnc V inl d o op bs d' o') :
    (⟨d', o'⟩ : Addrs) = Addrs.next ⟨d, o⟩ op := by cases h <;> rfl

theorem opsEnc_acc {inl d o ops bs} (dbg : Bool) (h : OpsEnc UVar inl d o ops bs)
    (hf : dbg = true → NoFars ⟨d, o⟩ ops) : OpsEnc (VAcc dbg) inl d o ops bs := by
  induction h with
  | nil d o => exact .nil d o
  | cons d o d' o' op ops bs bss h1 h2 ih =>
    refine .cons d o d' o' op ops bs bss (opEnc_acc dbg h1 (fun hb => (hf hb).1)) (ih fun hb => ?_)
    rw [opEnc_next h1]
    exact (hf hb).2

theorem headerEnc_acc {dbg h bs} (he : HeaderEnc UVar h bs) (h1 : h.nOps < 2 ^ 64 - 1)
    (h2 : h.nAdd < 2 ^ 64 - 1) (h3 : h.size < 2 ^ 64 - 1) : HeaderEnc (VAcc dbg) h bs := by
  obtain ⟨hv, ha, b1, b2, b3, e1, e2, e3, e4⟩ := he
  refine ⟨hv, ha, b1, b2, b3, ⟨UVar.mod e1, fun _ => by omega⟩, ?_, ⟨UVar.mod e3, fun _ => by omega⟩, e4⟩
  split
  · next hs =>
    rw [hs] at e2
    exact ⟨UVar.mod e2, fun _ => by omega⟩
  · next hs => simpa [hs] using e2

/-- Addresses below `2^63` are never half the address space apart. -/
theorem noFarJumps_of_below (ops : List Op) (h : ∀ op ∈ ops, AddrsBelow63 op) :
    NoFarJumps 0 0 ops :=
  (noFars_iff ops .zero).1 (noFars_of_below ops .zero (by simp [Addrs.zero]) (by simp [Addrs.zero]) h)

end Smdiff
