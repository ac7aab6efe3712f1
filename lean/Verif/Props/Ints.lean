import Verif.Lemmas.Wire
/-!
# C01-C04: variable-length integers and relative addresses

`dbg = true` is a debug build (overflow checks on), `dbg = false` a release build.
-/
namespace Smdiff
open Spec

/-! ## C01 -/

/-- **C01.** Writing any `u64` appends bytes which, followed by anything and read in either build,
give the value back and leave exactly what follows. -/
theorem C01_uvarint_roundtrip (dbg : Bool) (n : UInt64) (w : Bytes) :
    ∃ bs, (writeUVarint n : IOm Bytes Unit) w = (.ok (), w ++ bs) ∧
      ∀ rest, readUVarint dbg (bs ++ rest) = (.ok n, rest) := by
  refine ⟨uVarintBytes 10 n, writeUVarint_bytes n w, fun rest => ?_⟩
  have h := uVarintBytes_uvar n
  rw [readUVarint_of_leb dbg h.1 h.2.1 rest]
  simp

/-- The bytes are the u-varint of the specification. -/
theorem C01_uvarint_grammar (n : UInt64) (w : Bytes) :
    ∃ bs, (writeUVarint n : IOm Bytes Unit) w = (.ok (), w ++ bs) ∧ Leb bs n.toNat :=
  ⟨uVarintBytes 10 n, writeUVarint_bytes n w, (uVarintBytes_uvar n).1⟩

example : readUVarint true ([0xAC, 0x02] ++ [7, 7]) = (.ok 300, [7, 7]) := by decide
example : (writeUVarint 300 : IOm Bytes Unit) [] = (.ok (), [0xAC, 0x02]) := by decide

/-! ## C02 -/

/-- **C02.** Writing any `i64` and reading it back gives the same value and leaves what follows. -/
theorem C02_ivarint_roundtrip (dbg : Bool) (n : BitVec 64) (w : Bytes) :
    ∃ bs, (writeIVarint n : IOm Bytes Unit) w = (.ok (), w ++ bs) ∧
      ∀ rest, readIVarint dbg (bs ++ rest) = (.ok n, rest) := by
  obtain ⟨bs, h1, h2⟩ := C01_uvarint_roundtrip dbg (zigzagEncode n) w
  refine ⟨bs, h1, fun rest => ?_⟩
  unfold readIVarint
  rw [IOm.bind_ok (h2 rest)]
  simp [zigzagDecode_encode]

/-- **C02.** The zig-zag map is the mathematical one: `2n` for `n ≥ 0`, `-2n-1` for `n < 0`. -/
theorem C02_zigzag_value (n : BitVec 64) :
    ((zigzagEncode n).toNat : Int) = if 0 ≤ n.toInt then 2 * n.toInt else -2 * n.toInt - 1 := by
  rw [zigzagEncode_toNat, zigzag]
  split <;> omega

/-- **C02.** It is a bijection: encode and decode are inverse to each other. -/
theorem C02_zigzag_bijection :
    (∀ n, zigzagDecode (zigzagEncode n) = n) ∧ (∀ v, zigzagEncode (zigzagDecode v) = v) :=
  ⟨zigzagDecode_encode, zigzagEncode_decode⟩

example : zigzagEncode (BitVec.ofInt 64 (-3)) = 5 := by decide
example : zigzagEncode (BitVec.intMin 64) = 18446744073709551615 := by decide

/-! ## C03 -/

theorem uVarintBytes_length_of_lt : ∀ (f k : Nat) (n : UInt64), n.toNat < 128 ^ k → 1 ≤ k →
    (uVarintBytes f n).length ≤ k
  | 0, _, _, _, _ => by simp [uVarintBytes]
  | f + 1, k, n, h, hk => by
    unfold uVarintBytes
    split
    · next hg =>
      rw [u64_ge128] at hg
      match k, hk with
      | 1, _ => omega
      | k + 2, _ =>
        have := uVarintBytes_length_of_lt f (k + 1) (n >>> 7)
          (by rw [u64_shr7, Nat.div_lt_iff_lt_mul (by omega)]; rw [Nat.pow_succ] at h; exact h) (by omega)
        simpa using this
    · simpa using hk

theorem leb_lt {bs n} (h : Leb bs n) : n < 128 ^ bs.length := by
  induction h with
  | last b hb => simpa using hb
  | more b bs n hb h ih =>
    have := UInt8.toNat_lt b
    rw [List.length_cons, Nat.pow_succ]
    omega

theorem uVarintBytes_fuel : ∀ (f j : Nat) (n : UInt64), n.toNat < 128 ^ (f + 1) →
    uVarintBytes (f + 1 + j) n = uVarintBytes (f + 1) n
  | f, j, n, h => by
    rw [show f + 1 + j = (f + j) + 1 by omega, uVarintBytes, uVarintBytes]
    split
    · next hg =>
      rw [u64_ge128] at hg
      match f with
      | 0 => omega
      | f + 1 =>
        have := uVarintBytes_fuel f j (n >>> 7)
          (by rw [u64_shr7, Nat.div_lt_iff_lt_mul (by omega)]; rw [Nat.pow_succ] at h; exact h)
        rw [show f + 1 + j = f + 1 + j from rfl] at this
        rw [this]
    · rfl

theorem encodeSize_go : ∀ (f : Nat) (n : UInt64) (s : Nat),
    uVarintEncodeSize.go f (n >>> 7) s + 1 = s + (uVarintBytes (f + 1) n).length
  | 0, n, s => by
    simp only [uVarintEncodeSize.go, uVarintBytes]
    split <;> simp
  | f + 1, n, s => by
    rw [uVarintBytes, uVarintEncodeSize.go]
    have h7 : (n >>> 7 > 0) ↔ n ≥ 0x80 := by
      rw [u64_ge128, GT.gt, UInt64.lt_iff_toNat_lt, u64_shr7]
      simp
    by_cases hg : n ≥ 0x80
    · rw [if_pos hg, if_pos (h7.2 hg), encodeSize_go f (n >>> 7) (s + 1), List.length_cons]
      omega
    · rw [if_neg hg, if_neg (fun h => hg (h7.1 h))]
      rfl

theorem u64_lt128 (n : UInt64) : n.toNat < 128 ^ 10 := by
  have := UInt64.toNat_lt n; omega

/-- **C03.** `write_u_varint` emits exactly `u_varint_encode_size` bytes, between 1 and 10. -/
theorem C03_varint_size (n : UInt64) (w : Bytes) :
    ∃ bs, (writeUVarint n : IOm Bytes Unit) w = (.ok (), w ++ bs) ∧
      bs.length = uVarintEncodeSize n ∧ 1 ≤ bs.length ∧ bs.length ≤ 10 := by
  refine ⟨uVarintBytes 10 n, writeUVarint_bytes n w, ?_, leb_pos (uVarintBytes_uvar n).1,
    (uVarintBytes_uvar n).2.1⟩
  have h1 := encodeSize_go 10 n 1
  rw [show 10 + 1 = 9 + 1 + 1 from rfl, uVarintBytes_fuel 9 1 n (u64_lt128 n)] at h1
  unfold uVarintEncodeSize
  simp at h1
  omega

/-- **C03.** The 10-byte buffer never overflows: a larger buffer changes nothing. -/
theorem C03_varint_buffer (n : UInt64) (j : Nat) : uVarintBytes (10 + j) n = uVarintBytes 10 n :=
  uVarintBytes_fuel 9 j n (u64_lt128 n)

/-- **C03.** No byte string that is read as `n` (by either build) is shorter than what is written
for `n`. -/
theorem C03_varint_minimal (dbg : Bool) (n : UInt64) (bs : Bytes)
    (h : readUVarint dbg bs = (.ok n, [])) : uVarintEncodeSize n ≤ bs.length := by
  obtain ⟨ws, hw, hs, _, hle⟩ := C03_varint_size n []
  rw [← hs]
  have hws : ws = uVarintBytes 10 n := by
    rw [writeUVarint_bytes] at hw; simpa using hw.symm
  obtain ⟨bs', hb, hv⟩ := readUVarint_inv dbg h
  rw [List.append_nil] at hb
  subst hb
  by_cases hlen : bs.length ≤ 9
  · have : Leb bs n.toNat := by
      have key : ∀ m, Leb bs m → n.toNat = m % 2 ^ 64 → Leb bs n.toNat := by
        intro m hm e
        have h1 := leb_lt hm
        have h2 : 128 ^ bs.length ≤ 128 ^ 9 := Nat.pow_le_pow_right (by omega) hlen
        rw [e, Nat.mod_eq_of_lt (by omega)]
        exact hm
      unfold VRead at hv
      split at hv
      · obtain ⟨m, hm, _, e⟩ := hv; exact key m hm e
      · obtain ⟨m, hm, _, e⟩ := hv; exact key m hm (e (by omega))
    rw [hws]
    exact uVarintBytes_length_of_lt _ _ _ (leb_lt this) (leb_pos this)
  · omega

example : readUVarint true [0x85, 0x80, 0x00] = (.ok 5, []) ∧ uVarintEncodeSize 5 = 1 := by decide
example : uVarintEncodeSize 18446744073709551615 = 10 := by decide

/-! ## C04 -/

/-- **C04.** Decoding the difference against the same last address gives the target back, whenever
both sides return (any combination of builds). -/
theorem C04_address_roundtrip (dbg₁ dbg₂ : Bool) (last target addr : UInt64) (d : BitVec 64)
    (h₁ : diffAddressesToI64 dbg₁ last target = .ok d)
    (h₂ : diffAddressesToU64 dbg₂ last d = .ok addr) : addr = target :=
  reaches_unique (diffToU64_ok h₂) (diffToI64_ok h₁)

/-- **C04.** In release builds both sides always return. -/
theorem C04_address_release (last target : UInt64) :
    ∃ d, diffAddressesToI64 false last target = .ok d ∧
      diffAddressesToU64 false last d = .ok target := by
  obtain ⟨d, h⟩ := diffToI64_total false last target (by simp)
  obtain ⟨a, h'⟩ := diffToU64_total false last d (by simp)
  exact ⟨d, h, by rw [h', C04_address_roundtrip _ _ _ _ _ _ h h']⟩

/-- **C04.** The encoder side of a debug build panics exactly when the target lies `2^63` below
the last address; otherwise it returns. -/
theorem C04_encode_debug (last target : UInt64) :
    (diffAddressesToI64 true last target = .panic ↔ last.toNat = target.toNat + 2 ^ 63) ∧
    (last.toNat ≠ target.toNat + 2 ^ 63 → ∃ d, diffAddressesToI64 true last target = .ok d) := by
  refine ⟨⟨fun h => ?_, fun h => ?_⟩, fun h => diffToI64_total true last target (fun _ => h)⟩
  · apply Classical.byContradiction
    intro hc
    obtain ⟨d, hd⟩ := diffToI64_total true last target (fun _ => hc)
    rw [hd] at h; cases h
  · unfold diffAddressesToI64
    have h1 := UInt64.toNat_lt last
    have hn : ¬ (target > last) := by
      rw [GT.gt, UInt64.lt_iff_toNat_lt]; omega
    rw [if_neg hn]
    have hle : target ≤ last := by rw [UInt64.le_iff_toNat_le]; omega
    have : (last - target).toBitVec = I64_MIN := by
      apply BitVec.eq_of_toNat_eq
      rw [I64_MIN_toNat]
      have := UInt64.toNat_sub_of_le last target hle
      simp only [UInt64.toNat] at this h ⊢
      omega
    simp [this]

/-- **C04.** The decoder side of a debug build panics exactly on the difference `i64::MIN`. -/
theorem C04_decode_debug (last : UInt64) (d : BitVec 64) :
    (diffAddressesToU64 true last d = .panic ↔ d.toInt = -2 ^ 63) ∧
    (d.toInt ≠ -2 ^ 63 → ∃ a, diffAddressesToU64 true last d = .ok a) := by
  have hmin : d.toInt = -2 ^ 63 ↔ d = I64_MIN := by
    rw [show (-2 ^ 63 : Int) = I64_MIN.toInt by decide]
    exact BitVec.toInt_inj
  rw [hmin]
  refine ⟨⟨fun h => ?_, fun h => ?_⟩, fun h => ?_⟩
  · apply Classical.byContradiction
    intro hc
    obtain ⟨a, ha⟩ := diffToU64_total true last d (fun _ => hc)
    rw [ha] at h; cases h
  · subst h
    have : I64_MIN.msb = true := by decide
    simp [diffAddressesToU64, this]
  · exact diffToU64_total true last d (fun _ hc => h (hmin.2 hc))

example : diffAddressesToI64 true 10 3 = .ok (BitVec.ofInt 64 (-7)) ∧
    diffAddressesToU64 true 10 (BitVec.ofInt 64 (-7)) = .ok 3 := by decide
example : diffAddressesToI64 true 9223372036854775808 0 = .panic := by decide
example : diffAddressesToI64 false 9223372036854775808 0 = .ok (BitVec.intMin 64) ∧
    diffAddressesToU64 false 9223372036854775808 (BitVec.intMin 64) = .ok 0 := by decide

end Smdiff
