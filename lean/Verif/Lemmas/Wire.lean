import Verif.Model.Reader
import Verif.Lemmas.Int
/-!
# Helper lemmas: operations on the wire, writer ⊆ grammar, reader ↔ grammar
-/
namespace Smdiff
open Spec

/-! ## Sizes and op bytes -/

theorem sizeRoutine_cases (n : UInt16) :
    (1 ≤ n.toNat ∧ n.toNat ≤ 62 ∧ sizeRoutine n = .done n.toUInt8) ∨
    (n.toNat = 63 ∧ sizeRoutine n = .u8And62) ∨
    ((n.toNat = 0 ∨ 64 ≤ n.toNat) ∧ sizeRoutine n = .u16) := by
  unfold sizeRoutine
  have h1 : (1 ≤ n) ↔ 1 ≤ n.toNat := by rw [UInt16.le_iff_toNat_le]; rfl
  have h2 : (n ≤ 62) ↔ n.toNat ≤ 62 := by rw [UInt16.le_iff_toNat_le]; rfl
  have h3 : (n = 63) ↔ n.toNat = 63 := by rw [← UInt16.toNat_inj]; rfl
  split
  · next h => exact .inl ⟨h1.1 h.1, h2.1 h.2, rfl⟩
  · next h =>
    rw [h1, h2] at h
    split
    · next h => exact .inr (.inl ⟨h3.1 h, rfl⟩)
    · next h => rw [h3] at h; exact .inr (.inr ⟨by omega, rfl⟩)

/-- The four type numbers. -/
def opTy : Op → Nat
  | .copy .dict _ _ => 0
  | .copy .output _ _ => 1
  | .add _ => 2
  | .run _ _ => 3

theorem opTy_lt (op : Op) : opTy op < 4 := by
  rcases op with _ | ⟨_ | _, _, _⟩ | _ <;> simp [opTy]

theorem bitFlag_eq (op : Op) : op.bitFlag = UInt8.ofNat (64 * opTy op) := by
  rcases op with _ | ⟨_ | _, _, _⟩ | _ <;> rfl

theorem flag_or (t : Nat) (ht : t < 4) (n : UInt8) (hn : n.toNat ≤ 63) :
    UInt8.ofNat (64 * t) ||| n = UInt8.ofNat (64 * t + n.toNat) := by
  have key : ∀ t : Fin 4, ∀ m : Fin 64, UInt8.ofNat (64 * t.val) ||| UInt8.ofNat m.val
      = UInt8.ofNat (64 * t.val + m.val) := by decide +kernel
  have := key ⟨t, ht⟩ ⟨n.toNat, by omega⟩
  simpa using this

theorem oal_toNat (op : Op) (h : Legal op) : op.oal.toNat = opLen op := by
  rcases op with _ | _ | bs
  · simp [Op.oal, opLen]
  · simp [Op.oal, opLen]
  · simp only [Legal] at h
    simp only [Op.oal, opLen, UInt16.toNat_ofNat']
    omega

theorem oal_toNat_mod (op : Op) : op.oal.toNat = opLen op % 65536 := by
  rcases op with ⟨_, n⟩ | ⟨_, _, n⟩ | bs
  · have := UInt8.toNat_lt n
    simp only [Op.oal, opLen, UInt8.toNat_toUInt16]; omega
  · have := UInt16.toNat_lt n
    simp only [Op.oal, opLen]; omega
  · simp only [Op.oal, opLen, UInt16.toNat_ofNat']

/-- Splitting a 16-bit number into its two bytes. -/
theorem u16_split (n : UInt16) : n.toUInt8.toNat + 256 * (n >>> 8).toUInt8.toNat = n.toNat := by
  have := UInt16.toNat_lt n
  have h : (n >>> 8).toNat = n.toNat / 256 := by
    rw [UInt16.toNat_shiftRight]; simp [Nat.shiftRight_eq_div_pow]
  rw [UInt16.toNat_toUInt8, UInt16.toNat_toUInt8, h]; omega

theorem u16_join (lo hi : UInt8) :
    (lo.toUInt16 ||| (hi.toUInt16 <<< 8)).toNat = lo.toNat + 256 * hi.toNat := by
  have h1 := UInt8.toNat_lt lo
  have h2 := UInt8.toNat_lt hi
  rw [UInt16.toNat_or, UInt16.toNat_shiftLeft]
  simp only [UInt8.toNat_toUInt16]
  have e : (8 : UInt16).toNat % 16 = 8 := rfl
  rw [e]
  have h3 : hi.toNat <<< 8 % 2 ^ 16 = hi.toNat <<< 8 := by
    rw [Nat.shiftLeft_eq]; omega
  rw [h3, Nat.or_comm, ← Nat.shiftLeft_add_eq_or_of_lt (by simpa using h1), Nat.shiftLeft_eq]
  omega

/-! ## Writing one operation to a `Vec<u8>` -/

/-- Op byte and size of a legal operation. -/
theorem writeOpByteAndSize_spec (op : Op) (h : Legal op) :
    ∃ hd, SizeEnc (opTy op) hd (opLen op) ∧
      (op.isRun = true → hd = [UInt8.ofNat (64 * 3 + opLen op)]) ∧
      ∀ w : Bytes, writeOpByteAndSize op w = (.ok (), w ++ hd) := by
  have hl := oal_toNat op h
  have hrun : (if op.isRun then decide (op.oal ≤ 62) else true) = true := by
    rcases op with ⟨b, n⟩ | _ | _
    · simp only [Legal] at h
      simp only [Op.isRun, if_true, decide_eq_true_eq, UInt16.le_iff_toNat_le, Op.oal,
        UInt8.toNat_toUInt16]
      exact h.2
    · rfl
    · rfl
  have ha : ∀ w : Bytes, (IOm.lift (Outcome.assert
      (if op.isRun then decide (op.oal ≤ 62) else true)) : IOm Bytes Unit) w = (.ok (), w) := by
    intro w; rw [hrun]; rfl
  rcases sizeRoutine_cases op.oal with ⟨h1, h2, hs⟩ | ⟨h1, hs⟩ | ⟨h1, hs⟩
  · have e : (op.oal.toUInt8).toNat = opLen op := by
      rw [UInt16.toNat_toUInt8, hl]; omega
    have ef := flag_or (opTy op) (opTy_lt op) op.oal.toUInt8 (by omega)
    refine ⟨[UInt8.ofNat (64 * opTy op + opLen op)], .short _ (by omega) (by omega), ?_, ?_⟩
    · intro hr
      rcases op with _ | _ | _ <;> simp_all [Op.isRun, opTy]
    · intro w
      unfold writeOpByteAndSize
      simp only [hs]
      rw [IOm.bind_ok (ha w), bitFlag_eq, ef, e]
      rfl
  · have hnr : op.isRun = false := by
      rcases op with ⟨b, n⟩ | _ | _
      · simp only [Legal] at h; simp only [opLen] at hl; omega
      · rfl
      · rfl
    have ef := flag_or (opTy op) (opTy_lt op) 63 (by decide)
    have e1 : (op.oal - 62).toUInt8 = 1 := by
      have : op.oal = 63 := UInt16.toNat_inj.mp (by simpa using h1)
      rw [this]; rfl
    refine ⟨[UInt8.ofNat (64 * opTy op + 63), 1], ?_, ?_, ?_⟩
    · have := SizeEnc.mid (ty := opTy op) 1
      rwa [show (1 : UInt8).toNat + 62 = opLen op by simp; omega] at this
    · intro hr; simp [hnr] at hr
    · intro w
      unfold writeOpByteAndSize
      simp only [hs]
      rw [IOm.bind_ok (ha w), hnr]
      have : (op.bitFlag ||| SIZE_MASK) = UInt8.ofNat (64 * opTy op + 63) := by
        rw [bitFlag_eq]; exact ef
      rw [this, e1]
      simp [IOm.bind_run, Outcome.assert, writeU8]
  · have hnr : op.isRun = false := by
      rcases op with ⟨b, n⟩ | _ | _
      · simp only [Legal] at h; simp only [opLen] at hl; omega
      · rfl
      · rfl
    refine ⟨[UInt8.ofNat (64 * opTy op), op.oal.toUInt8, (op.oal >>> 8).toUInt8], ?_, ?_, ?_⟩
    · have := SizeEnc.long (ty := opTy op) op.oal.toUInt8 (op.oal >>> 8).toUInt8
      rwa [u16_split, hl] at this
    · intro hr; simp [hnr] at hr
    · intro w
      unfold writeOpByteAndSize
      simp only [hs]
      rw [IOm.bind_ok (ha w), hnr]
      rw [bitFlag_eq]
      simp [IOm.bind_run, Outcome.assert, writeU8, writeU16]

theorem writeUVarint_bytes (n : UInt64) (w : Bytes) :
    (writeUVarint n : IOm Bytes Unit) w = (.ok (), w ++ uVarintBytes 10 n) := rfl

/-- No address difference of the operation is exactly `2^63` backwards (which a debug build cannot
encode). -/
def NoMinDelta (a : Addrs) : Op → Prop
  | .copy .dict addr _ => a.d.toNat ≠ addr.toNat + 2 ^ 63
  | .copy .output addr _ => a.o.toNat ≠ addr.toNat + 2 ^ 63
  | _ => True

/-- The registers after an operation. -/
def Addrs.next (a : Addrs) : Op → Addrs
  | .copy .dict addr _ => { a with d := addr }
  | .copy .output addr _ => { a with o := addr }
  | _ => a

/-- The additional field of an operation. -/
theorem writeOpAddtl_spec (dbg : Bool) (op : Op) (a : Addrs) (h : dbg = true → NoMinDelta a op) :
    ∃ bs, (∀ w : Bytes, writeOpAddtl dbg op a w = (.ok (a.next op), w ++ bs)) ∧
      ((∃ b n, op = .run b n ∧ bs = [b]) ∨ (op = .add bs) ∨
       (∃ addr n d, op = .copy .dict addr n ∧ UVar bs (zigzag d) ∧ Reaches a.d d addr) ∨
       (∃ addr n d, op = .copy .output addr n ∧ UVar bs (zigzag d) ∧ Reaches a.o d addr)) := by
  rcases op with ⟨b, n⟩ | ⟨_ | _, addr, n⟩ | bs
  · exact ⟨[b], fun w => rfl, .inl ⟨b, n, rfl, rfl⟩⟩
  · obtain ⟨d, hd⟩ := diffToI64_total dbg a.d addr (fun hb => h hb)
    refine ⟨uVarintBytes 10 (zigzagEncode d), fun w => ?_, .inr (.inr (.inl ⟨addr, n, d.toInt, rfl, ?_, ?_⟩))⟩
    · simp [writeOpAddtl, IOm.bind_run, hd, writeIVarint, writeUVarint, Addrs.next]
    · have := uVarintBytes_uvar (zigzagEncode d)
      rwa [zigzagEncode_toNat] at this
    · exact diffToI64_ok hd
  · obtain ⟨d, hd⟩ := diffToI64_total dbg a.o addr (fun hb => h hb)
    refine ⟨uVarintBytes 10 (zigzagEncode d), fun w => ?_, .inr (.inr (.inr ⟨addr, n, d.toInt, rfl, ?_, ?_⟩))⟩
    · simp [writeOpAddtl, IOm.bind_run, hd, writeIVarint, writeUVarint, Addrs.next]
    · have := uVarintBytes_uvar (zigzagEncode d)
      rwa [zigzagEncode_toNat] at this
    · exact diffToI64_ok hd
  · exact ⟨bs, fun w => rfl, .inr (.inl rfl)⟩

/-- The accumulator after one operation. -/
def WriteAcc.next (acc : WriteAcc) (fmt : Format) (op : Op) : WriteAcc :=
  { addrs := acc.addrs.next op
    totalContentLen := acc.totalContentLen + op.oal.toNat
    addBytesWritten := acc.addBytesWritten + if fmt = .segregated then (opAdd op).length else 0
    addBytesSlices := if fmt = .segregated ∧ op.isAdd then acc.addBytesSlices ++ [opAdd op]
      else acc.addBytesSlices }

theorem writeOpStep_spec (dbg : Bool) (fmt : Format) (acc : WriteAcc) (op : Op) (hl : Legal op)
    (hm : dbg = true → NoMinDelta acc.addrs op) :
    ∃ bs, OpEnc UVar (fmt = .interleaved) acc.addrs.d acc.addrs.o op bs
        (acc.addrs.next op).d (acc.addrs.next op).o ∧
      ∀ w : Bytes, writeOpStep dbg fmt acc op w = (.ok (acc.next fmt op), w ++ bs) := by
  obtain ⟨hd, hse, hrun, hw⟩ := writeOpByteAndSize_spec op hl
  obtain ⟨bs, hb, hcase⟩ := writeOpAddtl_spec dbg op acc.addrs hm
  rcases hcase with ⟨b, n, rfl, rfl⟩ | rfl | ⟨addr, n, d, rfl, hv, hr⟩ | ⟨addr, n, d, rfl, hv, hr⟩
  · simp only [Legal] at hl
    refine ⟨[UInt8.ofNat (64 * 3 + n.toNat), b], ?_, fun w => ?_⟩
    · exact OpEnc.run _ _ b n hl.1 hl.2
    · cases fmt <;>
      simp [writeOpStep, IOm.bind_run, hw, hb, WriteAcc.next, hrun rfl, opLen, Op.isAdd, opAdd]
  · cases fmt
    · refine ⟨hd ++ bs, ?_, fun w => ?_⟩
      · have := OpEnc.add (V := UVar) (inl := true) acc.addrs.d acc.addrs.o hd bs hse
        simpa [Addrs.next] using this
      · simp [writeOpStep, IOm.bind_run, hw, hb, WriteAcc.next]
    · refine ⟨hd, ?_, fun w => ?_⟩
      · have := OpEnc.add (V := UVar) (inl := false) acc.addrs.d acc.addrs.o hd bs hse
        simpa [Addrs.next] using this
      · simp [writeOpStep, IOm.bind_run, hw, WriteAcc.next, opAdd, Op.isAdd, Addrs.next]
  · refine ⟨hd ++ bs, OpEnc.copyD _ _ addr n hd bs d hse hv hr, fun w => ?_⟩
    cases fmt <;> simp [writeOpStep, IOm.bind_run, hw, hb, WriteAcc.next, opAdd, Op.isAdd]
  · refine ⟨hd ++ bs, OpEnc.copyO _ _ addr n hd bs d hse hv hr, fun w => ?_⟩
    cases fmt <;> simp [writeOpStep, IOm.bind_run, hw, hb, WriteAcc.next, opAdd, Op.isAdd]

/-- No address difference in the whole list is exactly `2^63` backwards. -/
def NoMinDeltas : Addrs → List Op → Prop
  | _, [] => True
  | a, op :: ops => NoMinDelta a op ∧ NoMinDeltas (a.next op) ops

theorem writeOpsLoop_spec (dbg : Bool) (fmt : Format) (ops : List Op) : ∀ (acc : WriteAcc),
    (∀ op ∈ ops, Legal op) → (dbg = true → NoMinDeltas acc.addrs ops) →
    ∃ bs, OpsEnc UVar (fmt = .interleaved) acc.addrs.d acc.addrs.o ops bs ∧
      ∀ w : Bytes, writeOpsLoop dbg fmt ops acc w = (.ok (ops.foldl (·.next fmt ·) acc), w ++ bs) := by
  induction ops with
  | nil => intro acc _ _; exact ⟨[], OpsEnc.nil _ _, fun w => by simp [writeOpsLoop]⟩
  | cons op ops ih =>
    intro acc hl hm
    obtain ⟨bs, h1, h2⟩ := writeOpStep_spec dbg fmt acc op (hl op (by simp)) (fun h => (hm h).1)
    obtain ⟨bss, h3, h4⟩ := ih (acc.next fmt op) (fun o ho => hl o (by simp [ho]))
      (fun h => (hm h).2)
    refine ⟨bs ++ bss, OpsEnc.cons _ _ _ _ op ops bs bss h1 h3, fun w => ?_⟩
    simp [writeOpsLoop, IOm.bind_run, h2, h4]

theorem writeSlices_bytes (ss : List Bytes) (w : Bytes) :
    (writeSlices ss : IOm Bytes Unit) w = (.ok (), w ++ ss.flatten) := by
  induction ss generalizing w with
  | nil => simp [writeSlices]
  | cons s ss ih => simp [writeSlices, IOm.bind_run, ih]

theorem foldl_next_total (fmt : Format) (ops : List Op) (acc : WriteAcc) (hl : ∀ op ∈ ops, Legal op) :
    (ops.foldl (·.next fmt ·) acc).totalContentLen = acc.totalContentLen + totalLen ops := by
  induction ops generalizing acc with
  | nil => simp [totalLen]
  | cons op ops ih =>
    rw [List.foldl_cons, ih _ (fun o ho => hl o (by simp [ho]))]
    simp only [WriteAcc.next, oal_toNat op (hl op (by simp)), totalLen, List.map_cons, List.sum_cons]
    omega

theorem foldl_next_slices (ops : List Op) (acc : WriteAcc) :
    (ops.foldl (·.next .segregated ·) acc).addBytesSlices.flatten
      = acc.addBytesSlices.flatten ++ addBytes ops ∧
    (ops.foldl (·.next .segregated ·) acc).addBytesWritten
      = acc.addBytesWritten + (addBytes ops).length := by
  induction ops generalizing acc with
  | nil => simp [addBytes]
  | cons op ops ih =>
    rw [List.foldl_cons, (ih _).1, (ih _).2]
    have e : addBytes (op :: ops) = opAdd op ++ addBytes ops := by simp [addBytes]
    rw [e]
    constructor
    · simp only [WriteAcc.next]
      rcases op with _ | _ | _ <;> simp [Op.isAdd, opAdd]
    · simp only [WriteAcc.next, List.length_append, if_true]; omega

/-! ## Reading one operation -/

/-- Operation types by number. -/
def tyOf : Nat → OpType
  | 0 => .copy .dict
  | 1 => .copy .output
  | 2 => .add
  | _ => .run

theorem readOpByte_cons (b : UInt8) (rest : Bytes) :
    readOpByte (b :: rest)
      = (.ok (tyOf (b.toNat / 64), sizeRoutine (UInt16.ofNat (b.toNat % 64))), rest) := by
  have h0 : (b &&& SIZE_MASK).toUInt16 = UInt16.ofNat (b.toNat % 64) := by
    revert b; apply u8_all; decide +kernel
  have hd : (b &&& OP_MASK = COPY_D) ↔ b.toNat / 64 = 0 := by
    revert b; apply u8_all; decide +kernel
  have ho : (b &&& OP_MASK = COPY_O) ↔ b.toNat / 64 = 1 := by
    revert b; apply u8_all; decide +kernel
  have ha : (b &&& OP_MASK = ADD) ↔ b.toNat / 64 = 2 := by
    revert b; apply u8_all; decide +kernel
  have hr : (b &&& OP_MASK = RUN) ↔ b.toNat / 64 = 3 := by
    revert b; apply u8_all; decide +kernel
  have hlt := UInt8.toNat_lt b
  unfold readOpByte
  rw [IOm.bind_ok (show readU8 (b :: rest) = (.ok b, rest) from rfl)]
  simp only [h0, hd, ho, ha, hr]
  have hc : b.toNat / 64 = 0 ∨ b.toNat / 64 = 1 ∨ b.toNat / 64 = 2 ∨ b.toNat / 64 = 3 := by omega
  rcases hc with h | h | h | h <;> simp [h, tyOf]

theorem readOpByte_nil : readOpByte [] = (.err .eof, []) := rfl

theorem sizeRoutine_ofNat (s : Nat) (hs : s < 64) :
    sizeRoutine (UInt16.ofNat s) = if s = 0 then .u16 else if s = 63 then .u8And62 else .done (UInt8.ofNat s) := by
  have : ∀ s : Fin 64, sizeRoutine (UInt16.ofNat s.val) =
      if s.val = 0 then .u16 else if s.val = 63 then .u8And62 else .done (UInt8.ofNat s.val) := by
    decide +kernel
  exact this ⟨s, hs⟩

/-- What op byte and size field a byte string starts with, if any. -/
theorem sizeEnc_read {ty : Nat} (hty : ty < 4) {hd : Bytes} {n : Nat} (h : SizeEnc ty hd n)
    (rest : Bytes) :
    ∃ sz mid, readOpByte (hd ++ rest) = (.ok (tyOf ty, sz), mid) ∧
      readSize sz mid = (.ok (UInt16.ofNat n), rest) ∧ n < 65536 ∧
      (sz.isDone = true ↔ ∃ m, hd = [m]) := by
  cases h with
  | short n h1 h2 =>
    refine ⟨.done (UInt8.ofNat n), rest, ?_, ?_, by omega, by simp [Size.isDone]⟩
    · have e : (UInt8.ofNat (64 * ty + n)).toNat = 64 * ty + n := by
        rw [UInt8.toNat_ofNat']; omega
      simp only [List.cons_append, List.nil_append]
      rw [readOpByte_cons, e, show (64 * ty + n) / 64 = ty by omega,
        show (64 * ty + n) % 64 = n by omega, sizeRoutine_ofNat n (by omega)]
      simp [show n ≠ 0 by omega, show n ≠ 63 by omega]
    · simp only [readSize, IOm.pure_run]
      congr 2
      apply UInt16.toNat_inj.mp
      rw [UInt8.toNat_toUInt16, UInt8.toNat_ofNat', UInt16.toNat_ofNat']
      omega
  | mid v =>
    have hv := UInt8.toNat_lt v
    refine ⟨.u8And62, v :: rest, ?_, ?_, by omega, by simp [Size.isDone]⟩
    · have e : (UInt8.ofNat (64 * ty + 63)).toNat = 64 * ty + 63 := by
        rw [UInt8.toNat_ofNat']; omega
      simp only [List.cons_append, List.nil_append]
      rw [readOpByte_cons, e, show (64 * ty + 63) / 64 = ty by omega,
        show (64 * ty + 63) % 64 = 63 by omega, sizeRoutine_ofNat 63 (by omega)]
      simp
    · simp only [readSize, IOm.bind_run, readU8, IOm.pure_run]
      congr 2
  | long lo hi =>
    have h1 := UInt8.toNat_lt lo
    have h2 := UInt8.toNat_lt hi
    refine ⟨.u16, lo :: hi :: rest, ?_, ?_, by omega, by simp [Size.isDone]⟩
    · have e : (UInt8.ofNat (64 * ty)).toNat = 64 * ty := by
        rw [UInt8.toNat_ofNat']; omega
      simp only [List.cons_append, List.nil_append]
      rw [readOpByte_cons, e, show (64 * ty) / 64 = ty by omega,
        show (64 * ty) % 64 = 0 by omega, sizeRoutine_ofNat 0 (by omega)]
      simp
    · simp only [readSize, readU16]
      congr 2
      apply UInt16.toNat_inj.mp
      rw [u16_join, UInt16.toNat_ofNat']; omega

theorem readSize_inv {b : UInt8} {mid rest : Bytes} {n : UInt16}
    (h : readSize (sizeRoutine (UInt16.ofNat (b.toNat % 64))) mid = (.ok n, rest)) :
    ∃ hd, b :: mid = hd ++ rest ∧ SizeEnc (b.toNat / 64) hd n.toNat ∧
      ((sizeRoutine (UInt16.ofNat (b.toNat % 64))).isDone = true →
        hd = [b] ∧ 1 ≤ n.toNat ∧ n.toNat ≤ 62 ∧ b.toNat % 64 = n.toNat) := by
  have hb := UInt8.toNat_lt b
  have hlt : b.toNat % 64 < 64 := by omega
  rw [sizeRoutine_ofNat _ hlt] at h ⊢
  have eb : b = UInt8.ofNat (64 * (b.toNat / 64) + b.toNat % 64) := by
    apply UInt8.toNat_inj.mp; rw [UInt8.toNat_ofNat']; omega
  by_cases h0 : b.toNat % 64 = 0
  · simp only [h0, if_true] at h ⊢
    match mid, h with
    | lo :: hi :: r, h =>
      simp only [readSize, readU16, Prod.mk.injEq, Outcome.ok.injEq] at h
      refine ⟨[b, lo, hi], by simp [h.2], ?_, by simp [Size.isDone]⟩
      rw [← h.1, u16_join]
      have := SizeEnc.long (ty := b.toNat / 64) lo hi
      rw [h0, Nat.add_zero] at eb
      rwa [← eb] at this
    | [_], h => simp [readSize, readU16] at h
    | [], h => simp [readSize, readU16] at h
  · by_cases h63 : b.toNat % 64 = 63
    · simp only [h63, show ¬ (63 = 0) by omega, if_true, if_false] at h ⊢
      match mid, h with
      | v :: r, h =>
        simp only [readSize, IOm.bind_run, readU8, IOm.pure_run, Prod.mk.injEq, Outcome.ok.injEq] at h
        have hv := UInt8.toNat_lt v
        refine ⟨[b, v], by simp [h.2], ?_, by simp [Size.isDone]⟩
        have e : n.toNat = v.toNat + 62 := by
          rw [← h.1, UInt16.toNat_add, UInt8.toNat_toUInt16]
          have : (62 : UInt16).toNat = 62 := rfl
          omega
        rw [e]
        have := SizeEnc.mid (ty := b.toNat / 64) v
        rw [h63] at eb
        rwa [← eb] at this
      | [], h => simp [readSize, readU8, IOm.bind_run] at h
    · simp only [h0, h63, if_false] at h ⊢
      simp only [readSize, IOm.pure_run, Prod.mk.injEq, Outcome.ok.injEq] at h
      have e : n.toNat = b.toNat % 64 := by
        rw [← h.1, UInt8.toNat_toUInt16, UInt8.toNat_ofNat']; omega
      refine ⟨[b], by simp [h.2], ?_, fun _ => ⟨rfl, by omega, by omega, e.symm⟩⟩
      rw [e]
      have := SizeEnc.short (ty := b.toNat / 64) (b.toNat % 64) (by omega) (by omega)
      rwa [← eb] at this

theorem zigzag_min : zigzag (-2 ^ 63) = 2 ^ 64 - 1 := by decide

theorem zigzag_ne_max {d : Int} (h : zigzag d ≠ 2 ^ 64 - 1) : d ≠ -2 ^ 63 := by
  intro hc; subst hc; exact h zigzag_min

theorem ofInt_toInt {d : Int} (h1 : -2 ^ 63 ≤ d) (h2 : d < 2 ^ 63) :
    (BitVec.ofInt 64 d).toInt = d := by
  rw [BitVec.toInt_ofInt, Int.bmod_def]; split <;> omega

theorem readIVarint_addr (dbg : Bool) {vb : Bytes} {d : Int} {last addr : UInt64}
    (hv : VAcc dbg vb (zigzag d)) (hr : Reaches last d addr) (rest : Bytes) :
    ∃ delta, readIVarint dbg (vb ++ rest) = (.ok delta, rest) ∧
      diffAddressesToU64 dbg last delta = .ok addr := by
  refine ⟨BitVec.ofInt 64 d, ?_, ?_⟩
  · simp only [readIVarint, IOm.bind_run, readUVarint_of_mod dbg hv.1 rest, IOm.pure_run]
    rw [zigzagDecode_of_zigzag d hr.1 hr.2.1]
  · obtain ⟨a, ha⟩ := diffToU64_total dbg last (BitVec.ofInt 64 d) (by
      intro hb hc
      have h1 := congrArg BitVec.toInt hc
      rw [ofInt_toInt hr.1 hr.2.1] at h1
      exact zigzag_ne_max (hv.2 hb) (by rw [h1]; decide))
    have := diffToU64_ok ha
    rw [ofInt_toInt hr.1 hr.2.1] at this
    rw [ha, reaches_unique this hr]

/-- What `read_op` makes of an Add in each format: the bytes, or a buffer of zeros. -/
def maskAdd (inl : Bool) : Op → Op
  | .add bs => if inl then .add bs else .add (List.replicate bs.length 0)
  | op => op

theorem readOp_of_enc (dbg inl : Bool) {d o d' o' : UInt64} {op : Op} {bs : Bytes}
    (h : OpEnc (VAcc dbg) inl d o op bs d' o') (rest : Bytes) :
    readOp dbg ⟨d, o⟩ inl (bs ++ rest) = (.ok (maskAdd inl op, ⟨d', o'⟩), rest) := by
  cases h with
  | run b n h1 h2 =>
    obtain ⟨sz, mid, e1, e2, e3, e4⟩ := sizeEnc_read (ty := 3) (by omega)
      (SizeEnc.short n.toNat h1 h2) (b :: rest)
    have e1 : readOpByte ([UInt8.ofNat (64 * 3 + n.toNat), b] ++ rest) = _ := e1
    have hdone : sz.isDone = true := e4.2 ⟨_, rfl⟩
    unfold readOp
    rw [IOm.bind_ok e1]
    simp only [tyOf, hdone]
    rw [if_neg (by simp), IOm.bind_ok e2]
    simp only [IOm.bind_run, readU8, IOm.pure_run, maskAdd]
    have en : (UInt16.ofNat n.toNat).toUInt8 = n := by
      apply UInt8.toNat_inj.mp
      rw [UInt16.toNat_toUInt8, UInt16.toNat_ofNat']
      have := UInt8.toNat_lt n
      omega
    rw [en]
  | add hd bs hs =>
    obtain ⟨sz, mid, e1, e2, e3, e4⟩ := sizeEnc_read (ty := 2) (by omega) hs
      ((if inl then bs else []) ++ rest)
    unfold readOp
    rw [List.append_assoc, IOm.bind_ok e1]
    simp only [tyOf]
    rw [if_neg (by simp), IOm.bind_ok e2]
    have e5 : (UInt16.ofNat bs.length).toNat = bs.length := by
      rw [UInt16.toNat_ofNat']; omega
    cases inl
    · simp [IOm.bind_run, maskAdd, e5]
    · simp [IOm.bind_run, maskAdd, e5, readExact]
  | copyD addr len hd vb delta hs hv hr =>
    obtain ⟨sz, mid, e1, e2, e3, e4⟩ := sizeEnc_read (ty := 0) (by omega) hs (vb ++ rest)
    obtain ⟨dl, e5, e6⟩ := readIVarint_addr dbg hv hr rest
    unfold readOp
    rw [List.append_assoc, IOm.bind_ok e1]
    simp only [tyOf]
    rw [if_neg (by simp), IOm.bind_ok e2]
    simp [IOm.bind_run, e5, e6, maskAdd]
  | copyO addr len hd vb delta hs hv hr =>
    obtain ⟨sz, mid, e1, e2, e3, e4⟩ := sizeEnc_read (ty := 1) (by omega) hs (vb ++ rest)
    obtain ⟨dl, e5, e6⟩ := readIVarint_addr dbg hv hr rest
    unfold readOp
    rw [List.append_assoc, IOm.bind_ok e1]
    simp only [tyOf]
    rw [if_neg (by simp), IOm.bind_ok e2]
    simp [IOm.bind_run, e5, e6, maskAdd]

theorem readIVarint_inv (dbg : Bool) {s rest : Bytes} {delta : BitVec 64}
    (h : readIVarint dbg s = (.ok delta, rest)) :
    ∃ vb, s = vb ++ rest ∧ VRead dbg vb (zigzag delta.toInt) := by
  unfold readIVarint at h
  obtain ⟨v, s', h1, h2⟩ := IOm.bind_eq_ok h
  simp only [IOm.pure_run, Prod.mk.injEq, Outcome.ok.injEq] at h2
  obtain ⟨vb, h3, h4⟩ := readUVarint_inv dbg h1
  refine ⟨vb, by rw [h3, h2.2], ?_⟩
  rw [← h2.1, zigzagDecode_toInt]
  exact h4

/-- In segregated format the reader knows an Add only by its length. -/
def SameButAdd (inl : Bool) (op op' : Op) : Prop :=
  op' = maskAdd inl op

theorem readOp_inv (dbg inl : Bool) {a a' : Addrs} {s rest : Bytes} {op : Op}
    (h : readOp dbg a inl s = (.ok (op, a'), rest)) :
    ∃ bs, s = bs ++ rest ∧ OpEnc (VRead dbg) inl a.d a.o op bs a'.d a'.o ∧
      (inl = false → maskAdd false op = op) := by
  unfold readOp at h
  match s with
  | [] => simp [IOm.bind_run, readOpByte_nil] at h
  | b :: s =>
    rw [IOm.bind_ok (readOpByte_cons b s)] at h
    have hb := UInt8.toNat_lt b
    have hc : b.toNat / 64 = 0 ∨ b.toNat / 64 = 1 ∨ b.toNat / 64 = 2 ∨ b.toNat / 64 = 3 := by omega
    simp only at h
    split at h
    · simp at h
    next hrun =>
    obtain ⟨n, mid, h1, h2⟩ := IOm.bind_eq_ok h
    obtain ⟨hd, e1, e2, e3⟩ := readSize_inv h1
    rcases hc with hk | hk | hk | hk
    · rw [hk] at e2
      simp only [hk, tyOf] at h2
      obtain ⟨delta, mid2, h3, h4⟩ := IOm.bind_eq_ok h2
      obtain ⟨addr, mid3, h5, h6⟩ := IOm.bind_eq_ok h4
      simp only [IOm.lift_run, Prod.mk.injEq] at h5
      simp only [IOm.pure_run, Prod.mk.injEq, Outcome.ok.injEq] at h6
      obtain ⟨vb, e4, e5⟩ := readIVarint_inv dbg h3
      obtain ⟨⟨rfl, rfl⟩, rfl⟩ := h6
      refine ⟨hd ++ vb, by rw [e1, e4, h5.2, List.append_assoc], ?_, fun _ => rfl⟩
      exact OpEnc.copyD _ _ addr n hd vb delta.toInt e2 e5 (diffToU64_ok h5.1)
    · rw [hk] at e2
      simp only [hk, tyOf] at h2
      obtain ⟨delta, mid2, h3, h4⟩ := IOm.bind_eq_ok h2
      obtain ⟨addr, mid3, h5, h6⟩ := IOm.bind_eq_ok h4
      simp only [IOm.lift_run, Prod.mk.injEq] at h5
      simp only [IOm.pure_run, Prod.mk.injEq, Outcome.ok.injEq] at h6
      obtain ⟨vb, e4, e5⟩ := readIVarint_inv dbg h3
      obtain ⟨⟨rfl, rfl⟩, rfl⟩ := h6
      refine ⟨hd ++ vb, by rw [e1, e4, h5.2, List.append_assoc], ?_, fun _ => rfl⟩
      exact OpEnc.copyO _ _ addr n hd vb delta.toInt e2 e5 (diffToU64_ok h5.1)
    · rw [hk] at e2
      simp only [hk, tyOf] at h2
      cases inl
      · simp only [Bool.false_eq_true, if_false] at h2
        obtain ⟨bytes, mid2, h3, h4⟩ := IOm.bind_eq_ok h2
        simp only [IOm.pure_run, Prod.mk.injEq, Outcome.ok.injEq] at h3 h4
        obtain ⟨⟨rfl, rfl⟩, rfl⟩ := h4
        obtain ⟨rfl, rfl⟩ := h3
        refine ⟨hd, e1, ?_, fun _ => by simp [maskAdd]⟩
        have := OpEnc.add (V := VRead dbg) (inl := false) a.d a.o hd (List.replicate n.toNat 0)
          (by simpa using e2)
        simpa using this
      · simp only [if_true] at h2
        obtain ⟨bytes, mid2, h3, h4⟩ := IOm.bind_eq_ok h2
        simp only [IOm.pure_run, Prod.mk.injEq, Outcome.ok.injEq] at h4
        obtain ⟨⟨rfl, rfl⟩, rfl⟩ := h4
        simp only [readExact] at h3
        split at h3
        · next hle =>
          simp only [Prod.mk.injEq, Outcome.ok.injEq] at h3
          obtain ⟨rfl, rfl⟩ := h3
          refine ⟨hd ++ mid.take n.toNat, by
            rw [e1, List.append_assoc, List.take_append_drop], ?_, by simp⟩
          have := OpEnc.add (V := VRead dbg) (inl := true) a.d a.o hd (mid.take n.toNat)
            (by simpa [Nat.min_eq_left hle] using e2)
          simpa using this
        · simp at h3
    · simp only [hk, tyOf] at h2 hrun
      have hdone : (sizeRoutine (UInt16.ofNat (b.toNat % 64))).isDone = true := by simpa using hrun
      obtain ⟨e4, e5, e6, e7⟩ := e3 hdone
      obtain ⟨byte, mid2, h3, h4⟩ := IOm.bind_eq_ok h2
      simp only [IOm.pure_run, Prod.mk.injEq, Outcome.ok.injEq] at h4
      obtain ⟨⟨rfl, rfl⟩, rfl⟩ := h4
      match mid, h3 with
      | [], h3 => simp [readU8] at h3
      | x :: r, h3 =>
        simp only [readU8, Prod.mk.injEq, Outcome.ok.injEq] at h3
        obtain ⟨rfl, rfl⟩ := h3
        have en : n.toUInt8.toNat = n.toNat := by
          rw [UInt16.toNat_toUInt8]; omega
        refine ⟨[b, x], by rw [e1, e4]; rfl, ?_, fun _ => rfl⟩
        have := OpEnc.run (V := VRead dbg) (inl := inl) a.d a.o x n.toUInt8 (by omega) (by omega)
        rw [en, show 64 * 3 + n.toNat = b.toNat by omega] at this
        simpa using this

end Smdiff
