import Verif.Model.Common
import Verif.Spec
/-!
# Helper lemmas: bytes, varints, zig-zag, address differences
-/
namespace Smdiff
open Spec

/-- Case distinction over all 256 bytes. -/
theorem u8_all {p : UInt8 → Prop} (h : ∀ n : Fin 256, p (UInt8.ofNat n.val)) : ∀ b, p b := by
  intro b
  have := h ⟨b.toNat, by exact UInt8.toNat_lt b⟩
  simpa using this

theorem u8_and127 (b : UInt8) : (b &&& 0x7F).toNat = b.toNat % 128 := by
  rw [UInt8.toNat_and]
  exact Nat.and_two_pow_sub_one_eq_mod b.toNat 7

theorem u8_and128 (b : UInt8) : (b &&& 0x80 = 0) ↔ b.toNat < 128 := by
  revert b; apply u8_all; decide +kernel

/-! ## Reading varints -/

theorem shift_step (b : UInt8) (s : Nat) (hs : s < 64) :
    ((b &&& 0x7F).toUInt64 <<< (UInt64.ofNat (s % 64))) = UInt64.ofNat ((b.toNat % 128) <<< s) := by
  apply UInt64.toNat_inj.mp
  rw [UInt64.toNat_shiftLeft]
  simp only [UInt8.toNat_toUInt64, u8_and127, UInt64.toNat_ofNat']
  congr 2
  omega

theorem leb_pos {bs n} (h : Leb bs n) : 0 < bs.length := by cases h <;> simp

theorem add_mul_eq_or (a n s : Nat) (ha : a < 128) :
    ((a + 128 * n) <<< s) = (a <<< s) ||| (n <<< (s + 7)) := by
  have h : a + 128 * n = a ||| (n <<< 7) := by
    have h := Nat.shiftLeft_add_eq_or_of_lt (a := n) (b := a) (i := 7) (by simpa using ha)
    rw [Nat.or_comm, ← h, Nat.shiftLeft_eq]; omega
  rw [h, Nat.shiftLeft_or_distrib, Nat.add_comm s 7, Nat.shiftLeft_add]

theorem readUVarintLoop_of_leb (dbg : Bool) {bs : Bytes} {n : Nat} (h : Leb bs n) (rest : Bytes) :
    ∀ (k : Nat) (acc : UInt64), k + bs.length ≤ 10 →
      readUVarintLoop dbg acc (7 * k) (bs ++ rest) = (.ok (acc ||| UInt64.ofNat (n <<< (7 * k))), rest) := by
  induction h with
  | last b hb =>
    intro k acc hk
    simp only [List.length_cons, List.length_nil] at hk
    have hs : 7 * k < 64 := by omega
    simp only [List.cons_append, List.nil_append]
    rw [readUVarintLoop]
    rw [if_neg (by simp; omega)]
    simp only [(u8_and128 b).2 hb, if_true]
    rw [shift_step b _ hs, Nat.mod_eq_of_lt hb]
  | more b bs n hb h ih =>
    intro k acc hk
    simp only [List.length_cons] at hk
    have hp := leb_pos h
    have hs : 7 * k < 64 := by omega
    simp only [List.cons_append]
    rw [readUVarintLoop]
    rw [if_neg (by simp; omega)]
    have hnot : ¬ (b &&& 0x80 = 0) := fun hc => by
      have := (u8_and128 b).1 hc; omega
    simp only [hnot, if_false]
    have := ih (k + 1) (acc ||| ((b &&& 0x7F).toUInt64 <<< (UInt64.ofNat (7 * k % 64)))) (by omega)
    rw [show 7 * (k + 1) = 7 * k + 7 by omega] at this
    rw [this, shift_step b _ hs]
    have hb' : b.toNat < 256 := UInt8.toNat_lt b
    have hmod : b.toNat % 128 = b.toNat - 128 := by omega
    rw [hmod, add_mul_eq_or _ _ _ (by omega), UInt64.ofNat_or, UInt64.or_assoc]

theorem readUVarint_of_leb (dbg : Bool) {bs : Bytes} {n : Nat} (h : Leb bs n) (hl : bs.length ≤ 10)
    (rest : Bytes) : readUVarint dbg (bs ++ rest) = (.ok (UInt64.ofNat n), rest) := by
  have := readUVarintLoop_of_leb dbg h rest 0 0 (by omega)
  simpa [readUVarint] using this

theorem readUVarintLoop_leb (dbg : Bool) (s : Bytes) : ∀ (k : Nat) (acc v : UInt64) (rest : Bytes),
    readUVarintLoop dbg acc (7 * k) s = (.ok v, rest) →
    ∃ bs n, s = bs ++ rest ∧ Leb bs n ∧ (dbg = true → k + bs.length ≤ 10) := by
  induction s with
  | nil => intro k acc v rest h; simp [readUVarintLoop] at h
  | cons b s ih =>
    intro k acc v rest h
    rw [readUVarintLoop] at h
    split at h
    · simp at h
    next hd =>
    have hk : dbg = true → 7 * k < 64 := by
      intro hdb; simp [hdb] at hd; omega
    by_cases hb : b &&& 0x80 = 0
    · simp only [hb, if_true] at h
      simp only [Prod.mk.injEq, Outcome.ok.injEq] at h
      exact ⟨[b], b.toNat, by simp [h.2], Leb.last b ((u8_and128 b).1 hb), fun hdb => by
        have := hk hdb; simp; omega⟩
    · simp only [hb, if_false] at h
      rw [show 7 * k + 7 = 7 * (k + 1) by omega] at h
      obtain ⟨bs, n, h1, h2, h3⟩ := ih _ _ _ _ h
      have hb' : 128 ≤ b.toNat := by
        rcases Nat.lt_or_ge b.toNat 128 with hc | hc
        · exact absurd ((u8_and128 b).2 hc) hb
        · exact hc
      exact ⟨b :: bs, _, by simp [h1], Leb.more b bs n hb' h2, fun hdb => by
        have := h3 hdb; simp; omega⟩

theorem readUVarint_inv (dbg : Bool) {s rest : Bytes} {v : UInt64}
    (h : readUVarint dbg s = (.ok v, rest)) :
    ∃ bs, s = bs ++ rest ∧ VRead dbg bs v.toNat := by
  obtain ⟨bs, n, h1, h2, h3⟩ := readUVarintLoop_leb dbg s 0 0 v rest h
  refine ⟨bs, h1, ?_⟩
  have key : bs.length ≤ 10 → v.toNat = n % 2 ^ 64 := by
    intro hl
    have h' := readUVarint_of_leb dbg h2 hl rest
    rw [← h1, h] at h'
    simp only [Prod.mk.injEq, Outcome.ok.injEq, and_true] at h'
    rw [h']; simp
  unfold VRead
  split
  · next hdb => exact ⟨n, h2, by have := h3 hdb; omega, key (by have := h3 hdb; omega)⟩
  · exact ⟨n, h2, UInt64.toNat_lt v, key⟩

theorem readUVarint_of_mod (dbg : Bool) {bs : Bytes} {v : Nat} (h : UVarMod bs v) (rest : Bytes) :
    readUVarint dbg (bs ++ rest) = (.ok (UInt64.ofNat v), rest) := by
  obtain ⟨n, h1, h2, h3⟩ := h
  rw [readUVarint_of_leb dbg h1 h2 rest, h3]
  have : UInt64.ofNat (n % 2 ^ 64) = UInt64.ofNat n := by
    apply UInt64.toNat_inj.mp; simp
  rw [this]

theorem UVar.mod {bs v} (h : UVar bs v) : UVarMod bs v :=
  ⟨v, h.1, h.2.1, (Nat.mod_eq_of_lt h.2.2).symm⟩

theorem UVar.read {dbg bs v} (h : UVar bs v) : VRead dbg bs v := by
  unfold VRead
  split
  · exact UVar.mod h
  · exact ⟨v, h.1, h.2.2, fun _ => (Nat.mod_eq_of_lt h.2.2).symm⟩

/-! ## Writing varints -/

theorem u64_ge128 (n : UInt64) : (n ≥ 0x80) ↔ 128 ≤ n.toNat := by
  rw [ge_iff_le, UInt64.le_iff_toNat_le]; rfl

theorem u64_shr7 (n : UInt64) : (n >>> 7).toNat = n.toNat / 128 := by
  rw [UInt64.toNat_shiftRight]
  simp [Nat.shiftRight_eq_div_pow]

theorem u64_low7 (n : UInt64) : (((n &&& 0x7F) ||| 0x80).toUInt8).toNat = n.toNat % 128 + 128 := by
  rw [UInt64.toNat_toUInt8, UInt64.toNat_or, UInt64.toNat_and]
  have h1 : n.toNat &&& (0x7F : UInt64).toNat = n.toNat % 128 :=
    Nat.and_two_pow_sub_one_eq_mod n.toNat 7
  rw [h1]
  have hlt : n.toNat % 128 < 2 ^ 7 := Nat.mod_lt _ (by decide)
  have h2 := Nat.shiftLeft_add_eq_or_of_lt (a := 1) hlt
  have h3 : n.toNat % 128 ||| (0x80 : UInt64).toNat = 128 + n.toNat % 128 := by
    rw [Nat.or_comm]; exact h2.symm
  rw [h3]; omega

/-- The bytes written for `n` are a u-varint of `n`, of minimal length. -/
theorem uVarintBytes_leb : ∀ (fuel : Nat) (n : UInt64), n.toNat < 128 ^ (fuel + 1) →
    Leb (uVarintBytes (fuel + 1) n) n.toNat := by
  intro fuel
  induction fuel with
  | zero =>
    intro n h
    have hlt : n.toNat < 128 := by simpa using h
    rw [uVarintBytes, if_neg (fun hc => by have := (u64_ge128 n).1 hc; omega)]
    have e : n.toUInt8.toNat = n.toNat := by
      rw [UInt64.toNat_toUInt8]; exact Nat.mod_eq_of_lt (by omega)
    have := Leb.last n.toUInt8 (by omega)
    rwa [e] at this
  | succ f ih =>
    intro n h
    rw [uVarintBytes]
    split
    · next hge =>
      have hge := (u64_ge128 n).1 hge
      have h7 := ih (n >>> 7) (by
        rw [u64_shr7]; exact Nat.div_lt_of_lt_mul (by rw [Nat.pow_succ] at h; omega))
      have := Leb.more ((n &&& 0x7F) ||| 0x80).toUInt8 _ _ (by rw [u64_low7]; omega) h7
      rw [u64_low7, u64_shr7] at this
      rw [show n.toNat % 128 + 128 - 128 + 128 * (n.toNat / 128) = n.toNat by omega] at this
      exact this
    · next hge =>
      have hlt : n.toNat < 128 := by
        rcases Nat.lt_or_ge n.toNat 128 with hc | hc
        · exact hc
        · exact absurd ((u64_ge128 n).2 hc) hge
      have e : n.toUInt8.toNat = n.toNat := by
        rw [UInt64.toNat_toUInt8]; exact Nat.mod_eq_of_lt (by omega)
      have := Leb.last n.toUInt8 (by omega)
      rwa [e] at this

theorem uVarintBytes_length_le (fuel : Nat) (n : UInt64) : (uVarintBytes fuel n).length ≤ fuel := by
  induction fuel generalizing n with
  | zero => simp [uVarintBytes]
  | succ f ih =>
    rw [uVarintBytes]
    split
    · simp only [List.length_cons]; have := ih (n >>> 7); omega
    · simp

theorem uVarintBytes_uvar (n : UInt64) : UVar (uVarintBytes 10 n) n.toNat := by
  refine ⟨uVarintBytes_leb 9 n ?_, uVarintBytes_length_le 10 n, UInt64.toNat_lt n⟩
  have := UInt64.toNat_lt n
  omega

/-! ## Zig-zag -/

theorem zigzag_inj {a b : Int} (h : zigzag a = zigzag b) : a = b := by
  unfold zigzag at h; split at h <;> split at h <;> omega

theorem sshiftRight_63 (n : BitVec 64) :
    n.sshiftRight 63 = if n.msb then BitVec.allOnes 64 else 0#64 := by
  apply BitVec.eq_of_getLsbD_eq
  intro i hi
  rw [BitVec.getLsbD_sshiftRight]
  have h63 : 63 + i < 64 → n.getLsbD (63 + i) = n.msb := by
    intro h
    have : 63 + i = 63 := by omega
    rw [this, BitVec.msb_eq_getLsbD_last]
  have hif : (if 63 + i < 64 then n.getLsbD (63 + i) else n.msb) = n.msb := by
    split
    · exact h63 (by assumption)
    · rfl
  rw [hif]
  cases n.msb
  · simp
  · rw [if_pos rfl, BitVec.getLsbD_allOnes]; simp [hi]

theorem zigzagEncode_toNat (n : BitVec 64) : (zigzagEncode n).toNat = zigzag n.toInt := by
  have hn := n.isLt
  unfold zigzagEncode
  rw [sshiftRight_63]
  show (((n <<< 1) ^^^ _) : BitVec 64).toNat = _
  have hsh : (n <<< 1).toNat = (2 * n.toNat) % 2 ^ 64 := by
    rw [BitVec.toNat_shiftLeft, Nat.shiftLeft_eq]; omega
  unfold zigzag
  cases hm : n.msb
  · simp only [Bool.false_eq_true, if_false, BitVec.xor_zero, hsh]
    have hlt : n.toNat < 2 ^ 63 := by
      have := BitVec.msb_eq_false_iff_two_mul_lt.mp hm; omega
    rw [BitVec.toInt_eq_toNat_cond]
    rw [if_pos (by omega)]
    split <;> omega
  · simp only [if_true, BitVec.xor_allOnes, BitVec.toNat_not, hsh]
    have hge : 2 ^ 63 ≤ n.toNat := by
      have := BitVec.msb_eq_true_iff_two_mul_ge.mp hm; omega
    rw [BitVec.toInt_eq_toNat_cond]
    rw [if_neg (by omega)]
    split <;> omega

theorem zigzagDecode_toInt (v : UInt64) : zigzag (zigzagDecode v).toInt = v.toNat := by
  have hv := UInt64.toNat_lt v
  have h1 : (v &&& 1).toNat = v.toNat % 2 := by
    rw [UInt64.toNat_and]; exact Nat.and_two_pow_sub_one_eq_mod v.toNat 1
  have hs : ((v >>> 1).toBitVec).toNat = v.toNat / 2 := by
    show (v >>> 1).toNat = _
    rw [UInt64.toNat_shiftRight]
    simp [Nat.shiftRight_eq_div_pow]
  unfold zigzagDecode
  rcases Nat.mod_two_eq_zero_or_one v.toNat with h | h
  · have : v &&& 1 = 0 := by
      apply UInt64.toNat_inj.mp; rw [h1, h]; rfl
    rw [this]
    have e : (-(UInt64.toBitVec 0)) = 0#64 := by decide
    rw [e, BitVec.xor_zero, BitVec.toInt_eq_toNat_cond, hs, if_pos (by omega)]
    unfold zigzag; split <;> omega
  · have : v &&& 1 = 1 := by
      apply UInt64.toNat_inj.mp; rw [h1, h]; rfl
    rw [this]
    have e : (-(UInt64.toBitVec 1)) = BitVec.allOnes 64 := by decide
    rw [e, BitVec.xor_allOnes, BitVec.toInt_eq_toNat_cond, BitVec.toNat_not, hs, if_neg (by omega)]
    unfold zigzag; split <;> omega

theorem zigzagDecode_encode (n : BitVec 64) : zigzagDecode (zigzagEncode n) = n := by
  apply BitVec.eq_of_toInt_eq
  apply zigzag_inj
  rw [zigzagDecode_toInt, zigzagEncode_toNat]

theorem zigzagEncode_decode (v : UInt64) : zigzagEncode (zigzagDecode v) = v := by
  apply UInt64.toNat_inj.mp
  rw [zigzagEncode_toNat, zigzagDecode_toInt]

theorem zigzagDecode_of_zigzag (d : Int) (h1 : -2 ^ 63 ≤ d) (h2 : d < 2 ^ 63) :
    zigzagDecode (UInt64.ofNat (zigzag d)) = BitVec.ofInt 64 d := by
  apply BitVec.eq_of_toInt_eq
  apply zigzag_inj
  rw [zigzagDecode_toInt]
  have : (BitVec.ofInt 64 d).toInt = d := by
    rw [BitVec.toInt_ofInt, Int.bmod_def]; split <;> omega
  rw [this, UInt64.toNat_ofNat']
  apply Nat.mod_eq_of_lt
  unfold zigzag; split <;> omega

/-! ## Address differences -/

theorem I64_MIN_toNat : I64_MIN.toNat = 2 ^ 63 := by decide

theorem bv_toNat_of_toInt_nonneg {n : BitVec 64} (h : n.msb = false) : (n.toNat : Int) = n.toInt := by
  have := BitVec.msb_eq_false_iff_two_mul_lt.mp h
  rw [BitVec.toInt_eq_toNat_cond, if_pos (by omega)]

theorem diffToU64_ok {dbg cur d addr} (h : diffAddressesToU64 dbg cur d = .ok addr) :
    Reaches cur d.toInt addr := by
  have hc := UInt64.toNat_lt cur
  have hd := d.isLt
  unfold diffAddressesToU64 at h
  unfold Reaches
  cases hm : d.msb
  · have hlt := BitVec.msb_eq_false_iff_two_mul_lt.mp hm
    rw [BitVec.toInt_eq_toNat_cond, if_pos (by omega)]
    simp only [hm, Bool.not_false, if_true, Outcome.ok.injEq] at h
    subst h
    have e : (cur + (⟨d⟩ : UInt64)).toNat = (cur.toNat + d.toNat) % 2 ^ 64 := UInt64.toNat_add _ _
    rw [e]; omega
  · have hge := BitVec.msb_eq_true_iff_two_mul_ge.mp hm
    rw [BitVec.toInt_eq_toNat_cond, if_neg (by omega)]
    simp only [hm, Bool.not_true, Bool.false_eq_true, if_false] at h
    split at h
    · simp at h
    simp only [Outcome.ok.injEq] at h
    subst h
    have e : (cur - (⟨-d⟩ : UInt64)).toNat = (2 ^ 64 - (-d).toNat + cur.toNat) % 2 ^ 64 :=
      UInt64.toNat_sub _ _
    rw [e, BitVec.toNat_neg]; omega

theorem reaches_unique {cur d a b} (h1 : Reaches cur d a) (h2 : Reaches cur d b) : a = b := by
  apply UInt64.toNat_inj.mp
  have h3 := h1.2.2
  have h4 := h2.2.2
  omega

/-- Decoding a difference succeeds, except in debug builds on `i64::MIN`. -/
theorem diffToU64_total (dbg : Bool) (cur : UInt64) (d : BitVec 64) (h : dbg = true → d ≠ I64_MIN) :
    ∃ addr, diffAddressesToU64 dbg cur d = .ok addr := by
  unfold diffAddressesToU64
  split
  · exact ⟨_, rfl⟩
  · rw [if_neg]
    · exact ⟨_, rfl⟩
    · intro hc
      simp only [Bool.and_eq_true, beq_iff_eq] at hc
      exact h hc.1 hc.2

theorem diffToI64_ok {dbg cur addr d} (h : diffAddressesToI64 dbg cur addr = .ok d) :
    Reaches cur d.toInt addr := by
  have hc := UInt64.toNat_lt cur
  have ha := UInt64.toNat_lt addr
  unfold diffAddressesToI64 at h
  unfold Reaches
  split at h
  · next hgt =>
    have hgt : cur.toNat < addr.toNat := UInt64.lt_iff_toNat_lt.mp hgt
    simp only [Outcome.ok.injEq] at h
    have e : (addr - cur).toNat = addr.toNat - cur.toNat := by
      rw [UInt64.toNat_sub]; omega
    have : d.toNat = addr.toNat - cur.toNat := by rw [← h, ← e]; rfl
    rw [BitVec.toInt_eq_toNat_cond, this]
    split <;> omega
  · next hgt =>
    have hgt : ¬ cur.toNat < addr.toNat := fun hc => hgt (UInt64.lt_iff_toNat_lt.mpr hc)
    split at h
    · simp at h
    simp only [Outcome.ok.injEq] at h
    have e : (cur - addr).toNat = cur.toNat - addr.toNat := by
      rw [UInt64.toNat_sub]; omega
    have : d.toNat = (2 ^ 64 - (cur.toNat - addr.toNat)) % 2 ^ 64 := by
      rw [← h, BitVec.toNat_neg, ← e]; rfl
    rw [BitVec.toInt_eq_toNat_cond, this]
    split <;> omega

/-- Computing a difference succeeds, except in debug builds exactly `2^63` backwards. -/
theorem diffToI64_total (dbg : Bool) (cur addr : UInt64)
    (h : dbg = true → cur.toNat ≠ addr.toNat + 2 ^ 63) :
    ∃ d, diffAddressesToI64 dbg cur addr = .ok d := by
  unfold diffAddressesToI64
  split
  · exact ⟨_, rfl⟩
  · next hgt =>
    rw [if_neg]
    · exact ⟨_, rfl⟩
    · intro hc
      simp only [Bool.and_eq_true, beq_iff_eq] at hc
      have hgt : ¬ cur.toNat < addr.toNat := fun hc => hgt (UInt64.lt_iff_toNat_lt.mpr hc)
      have e : (cur - addr).toNat = cur.toNat - addr.toNat := by
        rw [UInt64.toNat_sub]; have := UInt64.toNat_lt cur; omega
      have : (cur - addr).toNat = 2 ^ 63 := by
        rw [← I64_MIN_toNat, ← hc.2]; rfl
      have := h hc.1
      omega

end Smdiff
