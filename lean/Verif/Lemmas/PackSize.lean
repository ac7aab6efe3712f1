import Verif.Props.Size
import Verif.Props.Packaging
import Verif.Props.Pairs
import Verif.Props.Wire
/-!
# Lemmas about how many bytes the operations of a patch need (for C101)
-/
namespace Smdiff
open Spec

/-- The bytes of an address that is written relative to `last`. -/
def deltaBytes (last addr : UInt64) : Nat := (uVarintBytes 10 (zigzagEncode (addr - last).toBitVec)).length

/-- The bytes the writer uses for type and length. -/
def sizeBytes (n : Nat) : Nat := if 1 ≤ n ∧ n ≤ 62 then 1 else if n = 63 then 2 else 3

/-- The bytes the format needs at least for type and length. -/
def leastSize (n : Nat) : Nat := if 1 ≤ n ∧ n ≤ 62 then 1 else if 62 ≤ n ∧ n ≤ 317 then 2 else 3

theorem leastSize_le (n : Nat) : leastSize n ≤ sizeBytes n := by unfold leastSize sizeBytes; split <;> (repeat' split) <;> omega

theorem sizeBytes_le (n : Nat) : sizeBytes n ≤ leastSize n + 1 := by unfold leastSize sizeBytes; split <;> (repeat' split) <;> omega

/-- The bytes of an operation, with those of an Add, if `f` are those of type and length. -/
def opBytes (f : Nat → Nat) (a : Addrs) : Op → Nat
  | .run _ _ => 2
  | .add bs => f bs.length + bs.length
  | .copy .dict addr n => f n.toNat + deltaBytes a.d addr
  | .copy .output addr n => f n.toNat + deltaBytes a.o addr

/-- The bytes of a list of operations. -/
def opsBytes (f : Nat → Nat) : Addrs → List Op → Nat
  | _, [] => 0
  | a, op :: ops => opBytes f a op + opsBytes f (a.next op) ops

/-- The registers after a list of operations. -/
def Addrs.after (a : Addrs) (ops : List Op) : Addrs := ops.foldl Addrs.next a

theorem opsBytes_append (f : Nat → Nat) : ∀ (xs ys : List Op) (a : Addrs),
    opsBytes f a (xs ++ ys) = opsBytes f a xs + opsBytes f (a.after xs) ys
  | [], ys, a => by simp [opsBytes, Addrs.after]
  | x :: xs, ys, a => by
    rw [List.cons_append, opsBytes, opsBytes, opsBytes_append f xs ys (a.next x)]
    simp only [Addrs.after, List.foldl_cons]
    omega

theorem deltaBytes_le (l a : UInt64) : deltaBytes l a ≤ 10 := (uVarintBytes_uvar _).2.1

theorem deltaBytes_pos (l a : UInt64) : 1 ≤ deltaBytes l a := leb_pos (uVarintBytes_uvar _).1

/-- What a different start can cost. -/
def gap (x y : UInt64) : Nat := if x = y then 0 else 9

theorem gap_self (x : UInt64) : gap x x = 0 := if_pos rfl

theorem gap_le (x y : UInt64) : gap x y ≤ 9 := by unfold gap; split <;> omega

theorem delta_gap (x y a : UInt64) : deltaBytes x a ≤ deltaBytes y a + gap x y := by
  unfold gap
  split
  · rename_i h; rw [h]; omega
  · have := deltaBytes_le x a; have := deltaBytes_pos y a; omega

/-- Where the addresses start from matters for the first copy from each side only. -/
theorem opsBytes_restart (f : Nat → Nat) : ∀ (ops : List Op) (a a' : Addrs),
    opsBytes f a ops ≤ opsBytes f a' ops + gap a.d a'.d + gap a.o a'.o
  | [], _, _ => by simp [opsBytes]
  | op :: ops, a, a' => by
    have ih := opsBytes_restart f ops (a.next op) (a'.next op)
    rw [opsBytes, opsBytes]
    rcases op with ⟨b, n⟩ | ⟨_ | _, addr, n⟩ | bs
    · simp only [Addrs.next, opBytes] at ih ⊢; omega
    · have h1 := delta_gap a.d a'.d addr
      simp only [Addrs.next, opBytes, gap_self] at ih ⊢
      omega
    · have h1 := delta_gap a.o a'.o addr
      simp only [Addrs.next, opBytes, gap_self] at ih ⊢
      omega
    · simp only [Addrs.next, opBytes] at ih ⊢; omega

theorem opsBytes_restart' (f : Nat → Nat) (ops : List Op) (a a' : Addrs) : opsBytes f a ops ≤ opsBytes f a' ops + 18 := by
  have := opsBytes_restart f ops a a'
  have h1 := gap_le a.d a'.d
  have h2 := gap_le a.o a'.o
  omega

/-- Cutting a list of operations into sections costs at most 18 bytes for each cut ... -/
theorem sections_le (f : Nat → Nat) : ∀ (ls : List (List Op)) (a : Addrs),
    (ls.map (opsBytes f .zero)).sum ≤ opsBytes f a ls.flatten + 18 * ls.length
  | [], _ => by simp [opsBytes]
  | l :: ls, a => by
    have h1 := sections_le f ls (a.after l)
    have h2 := opsBytes_restart' f l .zero a
    rw [List.map_cons, List.sum_cons, List.flatten_cons, opsBytes_append, List.length_cons]
    omega

theorem sections_le_zero (f : Nat → Nat) (l : List Op) (ls : List (List Op)) :
    ((l :: ls).map (opsBytes f .zero)).sum ≤ opsBytes f .zero (l :: ls).flatten + 18 * ls.length := by
  have h1 := sections_le f ls (Addrs.zero.after l)
  rw [List.map_cons, List.sum_cons, List.flatten_cons, opsBytes_append]
  omega

/-- ... and saves at most as much. -/
theorem le_sections (f : Nat → Nat) : ∀ (ls : List (List Op)) (a : Addrs),
    opsBytes f a ls.flatten ≤ (ls.map (opsBytes f .zero)).sum + 18 * ls.length
  | [], _ => by simp [opsBytes]
  | l :: ls, a => by
    have h1 := le_sections f ls (a.after l)
    have h2 := opsBytes_restart' f l a .zero
    rw [List.map_cons, List.sum_cons, List.flatten_cons, opsBytes_append, List.length_cons]
    omega

theorem le_sections_zero (f : Nat → Nat) (l : List Op) (ls : List (List Op)) :
    opsBytes f .zero (l :: ls).flatten ≤ ((l :: ls).map (opsBytes f .zero)).sum + 18 * ls.length := by
  have h1 := le_sections f ls (Addrs.zero.after l)
  rw [List.map_cons, List.sum_cons, List.flatten_cons, opsBytes_append]
  omega

theorem opsBytes_mono {f g : Nat → Nat} (h : ∀ n, f n ≤ g n) : ∀ (ops : List Op) (a : Addrs), opsBytes f a ops ≤ opsBytes g a ops
  | [], _ => Nat.le_refl _
  | op :: ops, a => by
    have ih := opsBytes_mono h ops (a.next op)
    have : opBytes f a op ≤ opBytes g a op := by
      rcases op with ⟨b, n⟩ | ⟨_ | _, addr, n⟩ | bs
      · exact Nat.le_refl _
      · exact Nat.add_le_add_right (h _) _
      · exact Nat.add_le_add_right (h _) _
      · exact Nat.add_le_add_right (h _) _
    rw [opsBytes, opsBytes]
    omega

/-! ## What is written -/

theorem diff_written {dbg : Bool} {cur addr : UInt64} {d : BitVec 64} (h : diffAddressesToI64 dbg cur addr = .ok d) :
    d = (addr - cur).toBitVec := by
  unfold diffAddressesToI64 at h
  split at h
  · simp only [Outcome.ok.injEq] at h; exact h.symm
  · split at h
    · cases h
    · simp only [Outcome.ok.injEq] at h
      rw [← h]
      simp only [UInt64.toBitVec_sub]
      rw [BitVec.neg_sub, BitVec.add_comm, BitVec.sub_eq_add_neg]

theorem opByte_length {op : Op} (hl : Legal op) {w w' : Bytes} (e : writeOpByteAndSize op w = (.ok (), w')) :
    w'.length = w.length + sizeBytes (opLen op) := by
  obtain ⟨hd, h1, -, -, -, h2⟩ := opByte_written op hl
  rw [h1] at e
  simp only [Prod.mk.injEq, true_and] at e
  rw [← e, List.length_append, h2]
  rfl

theorem addtl_length {dbg : Bool} {op : Op} (hl : Legal op) {a a' : Addrs} {w w' : Bytes}
    (e : writeOpAddtl dbg op a w = (.ok a', w')) : w'.length + sizeBytes (opLen op) = w.length + opBytes sizeBytes a op := by
  rcases op with ⟨b, n⟩ | ⟨_ | _, addr, n⟩ | bs
  · simp only [writeOpAddtl, IOm.bind_run, writeU8, writeAll_bytes, IOm.pure_run, Prod.mk.injEq] at e
    simp only [Legal] at hl
    rw [← e.2]
    have hsz : sizeBytes (opLen (.run b n)) = 1 := if_pos hl
    rw [hsz, List.length_append, List.length_singleton, opBytes]
  · simp only [writeOpAddtl] at e
    obtain ⟨d, w1, h1, e⟩ := IOm.bind_eq_ok e
    simp only [IOm.lift_run, Prod.mk.injEq] at h1
    obtain ⟨h1, rfl⟩ := h1
    have := diff_written h1
    subst this
    simp only [IOm.bind_run, writeIVarint, writeUVarint_bytes, IOm.pure_run, Prod.mk.injEq] at e
    rw [← e.2]
    simp only [List.length_append, opLen, opBytes, deltaBytes]
    omega
  · simp only [writeOpAddtl] at e
    obtain ⟨d, w1, h1, e⟩ := IOm.bind_eq_ok e
    simp only [IOm.lift_run, Prod.mk.injEq] at h1
    obtain ⟨h1, rfl⟩ := h1
    have := diff_written h1
    subst this
    simp only [IOm.bind_run, writeIVarint, writeUVarint_bytes, IOm.pure_run, Prod.mk.injEq] at e
    rw [← e.2]
    simp only [List.length_append, opLen, opBytes, deltaBytes]
    omega
  · simp only [writeOpAddtl, IOm.bind_run, writeAll_bytes, IOm.pure_run, Prod.mk.injEq] at e
    rw [← e.2]
    simp only [List.length_append, opLen, opBytes]
    omega

theorem step_length {dbg : Bool} {fmt : Format} {acc acc' : WriteAcc} {op : Op} (hl : Legal op) {w w' : Bytes}
    (e : writeOpStep dbg fmt acc op w = (.ok acc', w')) :
    w'.length + (if fmt = .segregated then (opAdd op).length else 0) = w.length + opBytes sizeBytes acc.addrs op := by
  unfold writeOpStep at e
  simp only at e
  obtain ⟨u, w1, h1, e⟩ := IOm.bind_eq_ok e
  have k1 := opByte_length hl h1
  cases fmt
  · simp only at e
    obtain ⟨a, w2, h2, e⟩ := IOm.bind_eq_ok e
    have k2 := addtl_length hl h2
    simp only [IOm.pure_run, Prod.mk.injEq] at e
    rw [← e.2]
    simp only [reduceCtorEq, if_false]
    omega
  · rcases op with ⟨b, n⟩ | ⟨s, addr, n⟩ | bs
    · simp only at e
      obtain ⟨a, w2, h2, e⟩ := IOm.bind_eq_ok e
      have k2 := addtl_length hl h2
      simp only [IOm.pure_run, Prod.mk.injEq] at e
      rw [← e.2]
      simp only [opAdd, List.length_nil, ite_self]
      omega
    · simp only at e
      obtain ⟨a, w2, h2, e⟩ := IOm.bind_eq_ok e
      have k2 := addtl_length hl h2
      simp only [IOm.pure_run, Prod.mk.injEq] at e
      rw [← e.2]
      simp only [opAdd, List.length_nil, ite_self]
      omega
    · simp only [IOm.pure_run, Prod.mk.injEq] at e
      rw [← e.2]
      simp only [opAdd, if_true, opBytes]
      simp only [opLen] at k1
      omega

theorem loop_length {dbg : Bool} {fmt : Format} : ∀ (ops : List Op), (∀ op ∈ ops, Legal op) → ∀ {acc acc' : WriteAcc}
    {w w' : Bytes}, writeOpsLoop dbg fmt ops acc w = (.ok acc', w') →
    w'.length + (if fmt = .segregated then (addBytes ops).length else 0) = w.length + opsBytes sizeBytes acc.addrs ops
  | [], _, acc, acc', w, w', e => by
    simp only [writeOpsLoop, IOm.pure_run, Prod.mk.injEq] at e
    rw [← e.2]; simp [addBytes, opsBytes]
  | op :: ops, hl, acc, acc', w, w', e => by
    simp only [writeOpsLoop] at e
    obtain ⟨acc1, w1, h1, e⟩ := IOm.bind_eq_ok e
    have k1 := step_length (hl op (by simp)) h1
    have k2 := loop_length ops (fun o ho => hl o (by simp [ho])) e
    rw [writeOpStep_addrs h1] at k2
    rw [addBytes_cons, opsBytes]
    cases fmt
    · simp only [reduceCtorEq, if_false] at k1 k2 ⊢; omega
    · simp only [if_true, List.length_append] at k1 k2 ⊢; omega

theorem body_length {dbg : Bool} {ops : List Op} {h : SectionHeader} (hl : ∀ op ∈ ops, Legal op) {w w' : Bytes}
    (e : writeOps dbg ops h w = (.ok (), w')) : w'.length = w.length + opsBytes sizeBytes .zero ops := by
  unfold writeOps at e
  split at e
  · simp at e
  split at e
  · simp at e
  obtain ⟨acc, w1, h1, e⟩ := IOm.bind_eq_ok e
  have k := loop_length ops hl h1
  have hm := (writeOpsLoop_inv ops h1).2
  obtain ⟨bs, -, hb⟩ := writeOpsLoop_spec dbg h.format ops {} hl hm
  rw [hb w] at h1
  simp only [Prod.mk.injEq, Outcome.ok.injEq] at h1
  obtain ⟨rfl, -⟩ := h1
  split at e
  · rename_i hf
    obtain ⟨u, w2, h2, e⟩ := IOm.bind_eq_ok e
    rw [writeSlices_bytes] at h2
    simp only [Prod.mk.injEq, true_and] at h2
    have hw : w' = w2 := by
      split at e
      · simp at e
      split at e
      · simp at e
      · simp only [IOm.pure_run, Prod.mk.injEq, true_and] at e; exact e.symm
    rw [hf, (foldl_next_slices ops {}).1] at h2
    rw [hw, ← h2]
    simp only [hf, if_true] at k
    simp only [List.length_append, List.flatten_nil, List.length_nil]
    omega
  · rename_i hf
    have hw : w' = w1 := by
      split at e
      · simp at e
      · simp only [IOm.pure_run, Prod.mk.injEq, true_and] at e; exact e.symm
    rw [hw]
    simp only [hf, if_false] at k
    exact k

theorem header_length {dbg : Bool} {s : List Op × SectionHeader} (hs : SecOk s) {w w' : Bytes}
    (e : writeSectionHeader dbg s.2 w = (.ok (), w')) : w.length + 3 ≤ w'.length ∧ w'.length ≤ w.length + 14 := by
  obtain ⟨ha, hleg, hcnt, ho, hadd, hmax⟩ := hs
  have hle := addBytes_le s.1
  refine ⟨?_, header_len dbg s.2 (by omega) (by omega) e⟩
  obtain ⟨bs, ⟨-, -, b1, b2, b3, h1, -, h3, rfl⟩, hw⟩ := writeSectionHeader_spec dbg s.2 ha (fun _ => by omega)
  rw [hw] at e
  simp only [Prod.mk.injEq, true_and] at e
  have p1 := leb_pos h1.1
  have p3 := leb_pos h3.1
  rw [← e]
  simp only [List.length_append, List.length_cons]
  omega

/-- The bytes of the written sections: those of the operations, and 3 to 14 for each header. -/
theorem written_length (dbg : Bool) (fmt : Format) : ∀ (secs : List (List Op × SectionHeader)), (∀ s ∈ secs, SecOk s) →
    ∀ {w w' : Bytes}, writeEach (writeSection dbg) fmt secs w = (.ok (), w') →
    w.length + 3 * secs.length + (secs.map fun s => opsBytes sizeBytes .zero s.1).sum ≤ w'.length ∧
    w'.length ≤ w.length + 14 * secs.length + (secs.map fun s => opsBytes sizeBytes .zero s.1).sum
  | [], _, w, w', e => by cases e; simp
  | s :: ss, hs, w, w', e => by
    obtain ⟨_, w1, e1, e2⟩ := IOm.bind_eq_ok e
    obtain ⟨_, w2, e3, e4⟩ := IOm.bind_eq_ok e1
    have h := (hs s (by simp)).format fmt
    have k1 := header_length h e3
    have k2 := body_length h.2.1 e4
    have k3 := written_length dbg fmt ss (fun t ht => hs t (by simp [ht])) e2
    simp only [List.map_cons, List.sum_cons, List.length_cons] at k1 k2 k3 ⊢
    omega

/-! ## What is read -/

theorem reaches_delta {l a : UInt64} {d : Int} (h : Reaches l d a) : (zigzagEncode (a - l).toBitVec).toNat = zigzag d := by
  rw [zigzagEncode_toNat]
  congr 1
  obtain ⟨h1, h2, h3⟩ := h
  have e : (d % 2 ^ 64 : Int) = ((a - l).toNat : Int) := by
    have hl := UInt64.toNat_lt l
    have ha := UInt64.toNat_lt a
    rw [UInt64.toNat_sub]
    omega
  have e2 : (BitVec.ofInt 64 d) = (a - l).toBitVec := by
    apply BitVec.eq_of_toNat_eq
    rw [BitVec.toNat_ofInt]
    show _ = (a - l).toNat
    have : ((2 : Int) ^ 64) = ((2 ^ 64 : Nat) : Int) := rfl
    rw [← this, e]
    simp
  rw [← e2, BitVec.toInt_ofInt]
  exact Int.bmod_eq_of_le (by omega) (by omega)

theorem varint_least (dbg : Bool) {bs : Bytes} {n : UInt64} (hv : VRead dbg bs n.toNat) : (uVarintBytes 10 n).length ≤ bs.length := by
  by_cases hlen : bs.length ≤ 9
  · have : Leb bs n.toNat := by
      have key : ∀ m, Leb bs m → n.toNat = m % 2 ^ 64 → Leb bs n.toNat := by
        intro m hm e
        have h1 := leb_lt hm
        have h2 : 128 ^ bs.length ≤ 128 ^ 9 := Nat.pow_le_pow_right (by omega) hlen
        rw [e, Nat.mod_eq_of_lt (by omega)]
        exact hm
      unfold VRead at hv
      split at hv
      · obtain ⟨m, hm, _, e⟩ := hv; exact key m hm e
      · obtain ⟨m, hm, _, e⟩ := hv; exact key m hm (e (by omega))
    exact uVarintBytes_length_of_lt _ _ _ (leb_lt this) (leb_pos this)
  · have := (uVarintBytes_uvar n).2.1
    omega

theorem vread_pos {dbg : Bool} {bs : Bytes} {v : Nat} (hv : VRead dbg bs v) : 1 ≤ bs.length := by
  unfold VRead at hv
  split at hv
  · obtain ⟨m, hm, -⟩ := hv; exact leb_pos hm
  · obtain ⟨m, hm, -⟩ := hv; exact leb_pos hm

theorem size_least {ty n : Nat} {hd : Bytes} (h : SizeEnc ty hd n) : leastSize n ≤ hd.length := by
  unfold leastSize
  cases h with
  | short n h1 h2 => rw [if_pos ⟨h1, h2⟩]; simp
  | mid v =>
    have := UInt8.toNat_lt v
    split
    · simp
    · rw [if_pos (by omega)]; simp
  | long lo hi => simp only [List.length_cons, List.length_nil]; split <;> (try split) <;> omega

theorem op_least {dbg inl : Bool} {d o d' o' : UInt64} {op : Op} {bs : Bytes} (h : OpEnc (VRead dbg) inl d o op bs d' o') :
    opBytes leastSize ⟨d, o⟩ op ≤ bs.length + (if inl then 0 else (opAdd op).length) ∧
      (Addrs.next ⟨d, o⟩ op) = ⟨d', o'⟩ := by
  cases h with
  | run b n h1 h2 => exact ⟨by simp [opBytes], rfl⟩
  | add hd as h1 =>
    have := size_least h1
    refine ⟨?_, rfl⟩
    cases inl <;> simp [opBytes, opAdd] <;> omega
  | copyD addr len hd vb delta h1 h2 h3 =>
    refine ⟨?_, rfl⟩
    have := size_least h1
    rw [← reaches_delta h3] at h2
    have := varint_least dbg h2
    simp only [opBytes, deltaBytes, List.length_append]
    omega
  | copyO addr len hd vb delta h1 h2 h3 =>
    refine ⟨?_, rfl⟩
    have := size_least h1
    rw [← reaches_delta h3] at h2
    have := varint_least dbg h2
    simp only [opBytes, deltaBytes, List.length_append]
    omega

theorem ops_least {dbg inl : Bool} {d o : UInt64} {ops : List Op} {bs : Bytes} (h : OpsEnc (VRead dbg) inl d o ops bs) :
    opsBytes leastSize ⟨d, o⟩ ops ≤ bs.length + (if inl then 0 else (addBytes ops).length) := by
  induction h with
  | nil => simp [opsBytes]
  | cons d o d' o' op ops bs bss h1 _ ih =>
    obtain ⟨k1, k2⟩ := op_least h1
    rw [opsBytes, k2, addBytes_cons]
    cases inl <;> simp at * <;> omega

theorem body_least {dbg seg : Bool} {ops : List Op} {bs : Bytes} (h : BodyEnc (VRead dbg) seg ops bs) :
    opsBytes leastSize .zero ops ≤ bs.length := by
  obtain ⟨ib, h, rfl⟩ := h
  have := ops_least h
  rw [List.length_append]
  cases seg <;> simp at * <;> exact this

/-- The bytes of a patch that can be read: at least those of its operations, and 3 for each header. -/
theorem read_length {dbg : Bool} {cdc : Codec} {ss : List (Header × List Op)} {p rest : Bytes}
    (h : SectionsAt (VRead dbg) cdc ss p rest) (hal : ∀ s ∈ ss, s.1.algo ≠ 1 ∧ s.1.algo ≠ 2 ∧ s.1.algo ≠ 3) :
    rest.length + 3 * ss.length + (ss.map fun s => opsBytes leastSize .zero s.2).sum ≤ p.length := by
  induction h with
  | nil => simp
  | cons h ops ss s s' rest h1 _ ih =>
    have ih := ih (fun t ht => hal t (by simp [ht]))
    obtain ⟨a1, a2, a3⟩ := hal (h, ops) (by simp)
    obtain ⟨hb, s1, rfl, ⟨-, -, b1, b2, b3, v1, -, v3, rfl⟩, hbody, -⟩ := h1
    unfold BodyAt at hbody
    rw [if_neg a1, if_neg a2, if_neg a3] at hbody
    obtain ⟨body, rfl, hbody⟩ := hbody
    have k := body_least hbody
    have p1 := vread_pos v1
    have p3 := vread_pos v3
    simp only [List.length_append, List.length_cons, List.map_cons, List.sum_cons] at *
    omega

end Smdiff
