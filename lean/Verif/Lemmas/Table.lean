import Verif.Lemmas.Hash
/-!
# The hash table, the chain and the walk along it
-/
namespace Smdiff
open Spec

/-- The call returns, except that it may panic if `pn` and may run forever if `dv`. -/
def Safe {α : Type} (pn dv : Prop) : Outcome α → Prop
  | .ok _ => True
  | .err _ => False
  | .panic => pn
  | .diverge => dv

section
variable {α β : Type} {pn dv : Prop} {x : Outcome α} {f : α → Outcome β}

theorem Safe.bind (hx : Safe pn dv x) (hf : ∀ a, x = .ok a → Safe pn dv (f a)) : Safe pn dv (x >>= f) := by
  cases x with
  | ok a => exact hf a rfl
  | err e => exact hx.elim
  | panic => exact hx
  | diverge => exact hx

theorem Safe.of_ok {a : α} (h : x = .ok a) : Safe pn dv x := by rw [h]; trivial

theorem Safe.mono {pn' dv' : Prop} (h : Safe pn dv x) (hp : pn → pn') (hd : dv → dv') : Safe pn' dv' x := by
  cases x with
  | ok a => trivial
  | err e => exact h.elim
  | panic => exact hp h
  | diverge => exact hd h

theorem Safe.ok_of (h : Safe pn dv x) (hp : ¬ pn) (hd : ¬ dv) : ∃ a, x = .ok a := by
  cases x with
  | ok a => exact ⟨a, rfl⟩
  | err e => exact h.elim
  | panic => exact (hp h).elim
  | diverge => exact (hd h).elim

theorem Safe.assert {c : Bool} (h : c = true) : Safe pn dv (Outcome.assert c) := by
  rw [h]; trivial

theorem Safe.debugAssert {dbg c : Bool} (h : c = true) : Safe pn dv (Outcome.debugAssert dbg c) := by
  rw [h]; cases dbg <;> trivial

theorem Safe.idx {l : List α} {i : Nat} (h : i < l.length) : Safe pn dv (Smdiff.idx l i) := by
  refine Safe.of_ok (a := l[i]) ?_
  rw [idx_eq_ok]; exact List.getElem?_eq_getElem h

theorem Safe.slice {l : List α} {i j : Nat} (h : i ≤ j) (h2 : j ≤ l.length) : Safe pn dv (Smdiff.slice l i j) :=
  Safe.of_ok (slice_eq_ok.2 ⟨h, h2, rfl⟩)

theorem Safe.sliceFrom {l : List α} {i : Nat} (h : i ≤ l.length) : Safe pn dv (Smdiff.sliceFrom l i) :=
  Safe.of_ok (sliceFrom_eq_ok.2 ⟨h, rfl⟩)

theorem Safe.onSome {f : α → Outcome β} {o : Option α} (h : ∀ a, o = some a → Safe pn dv (f a)) :
    Safe pn dv (Smdiff.onSome f o) := by
  cases o with
  | none => trivial
  | some a => exact Safe.bind (h a rfl) (fun _ _ => trivial)

end

/-! ## The table -/

/-- A table for hashes of `W` bits. -/
structure TableWf (W : Nat) (t : HashTable) : Prop where
  bits : ∃ b ≤ W, t.mask = 2 ^ b - 1 ∧ t.shift = W - b ∧ t.buckets.length = 2 ^ b

/-- Every occupied bucket holds an entry of `S`. -/
def TableHas (S : UInt64 → Nat → Prop) (t : HashTable) : Prop :=
  ∀ (i : Nat) (b : BucketValue), t.buckets[i]? = some b → b.value ≠ 0 → S b.hash (b.value - 1)

theorem tableBits_le (slots : Nat) : tableBits slots ≤ 63 := by unfold tableBits; omega

theorem tableBits_le32 {slots : Nat} (h : slots < 2 ^ 33) : tableBits slots ≤ 32 := by
  have h1 : nextPow2Exp (slots + 1) ≤ 33 := by
    unfold nextPow2Exp
    split
    · omega
    · next hn =>
      have := (Nat.log2_lt (n := slots + 1 - 1) (k := 33) (by omega)).2 (by omega)
      omega
  unfold tableBits
  omega

theorem tableNew_wf (cap : Nat) (hash32 : Bool) (h : hash32 = true → cap < 2 ^ 33) :
    TableWf (if hash32 then 32 else 64) (HashTable.new cap hash32) := by
  refine ⟨tableBits cap, ?_, rfl, rfl, by simp [HashTable.new]⟩
  cases hash32 with
  | true => exact tableBits_le32 (h rfl)
  | false => have := tableBits_le cap; simp only [Bool.false_eq_true, if_false]; omega

theorem tableNew_has (cap : Nat) (hash32 : Bool) (S : UInt64 → Nat → Prop) :
    TableHas S (HashTable.new cap hash32) := by
  intro i b hb hv
  simp only [HashTable.new, List.getElem?_replicate] at hb
  split at hb
  · cases hb; exact absurd rfl hv
  · cases hb

theorem bucketIdx_lt {W : Nat} {t : HashTable} (hw : TableWf W t) {h : UInt64} (hh : h.toNat < 2 ^ W) :
    bucketIdx h t.shift t.mask < t.buckets.length := by
  obtain ⟨b, hb, hm, hs, hl⟩ := hw.bits
  rw [hl, hm, hs]
  unfold bucketIdx
  apply Nat.xor_lt_two_pow
  · rw [Nat.shiftRight_eq_div_pow]
    apply Nat.div_lt_of_lt_mul
    rw [← Nat.pow_add]
    rw [show W - b + b = W by omega]
    exact hh
  · have := Nat.and_le_right (n := h.toNat) (m := 2 ^ b - 1)
    have := Nat.two_pow_pos b
    omega

theorem table_get {W : Nat} {S : UInt64 → Nat → Prop} {t : HashTable} (hw : TableWf W t) (hS : TableHas S t)
    {h : UInt64} (hh : h.toNat < 2 ^ W) : ∃ r, t.get h = .ok r ∧ ∀ p, r = some p → S h p := by
  have hlt := bucketIdx_lt hw hh
  refine ⟨(t.buckets[bucketIdx h t.shift t.mask]).get h, ?_, ?_⟩
  · simp only [HashTable.get, Outcome.bind_eq_ok]
    exact ⟨_, idx_eq_ok.2 (List.getElem?_eq_getElem hlt), rfl⟩
  · intro p hp
    unfold BucketValue.get at hp
    split at hp
    · cases hp
    · next hv =>
      split at hp
      · next he =>
        cases hp
        have := hS _ _ (List.getElem?_eq_getElem hlt) hv
        rwa [he] at this
      · cases hp

/-- What an insertion returns: a former entry, or nothing. -/
def ResultHas (S : UInt64 → Nat → Prop) (h : UInt64) : SetResult → Prop
  | .fresh => True
  | .replaced o => S h o
  | .evicted oh o => S oh o

theorem table_insert {W : Nat} {S : UInt64 → Nat → Prop} {t : HashTable} (hw : TableWf W t) (hS : TableHas S t)
    {h : UInt64} (hh : h.toNat < 2 ^ W) (p : Nat) :
    ∃ r t', t.insert h p = .ok (r, t') ∧ TableWf W t' ∧ TableHas (fun h' p' => S h' p' ∨ (h' = h ∧ p' = p)) t' ∧
      ResultHas S h r := by
  have hlt := bucketIdx_lt hw hh
  refine ⟨(t.buckets[bucketIdx h t.shift t.mask]).setResult h,
    { t with buckets := t.buckets.set (bucketIdx h t.shift t.mask) ⟨h, p + 1⟩ }, ?_, ?_, ?_, ?_⟩
  · simp only [HashTable.insert, Outcome.bind_eq_ok]
    exact ⟨_, idx_eq_ok.2 (List.getElem?_eq_getElem hlt), rfl⟩
  · obtain ⟨b, hb, hm, hs, hl⟩ := hw.bits
    exact ⟨b, hb, hm, hs, by simp [hl]⟩
  · intro i b hb hv
    simp only [List.getElem?_set] at hb
    split at hb
    · cases hb; exact Or.inr ⟨rfl, rfl⟩
    · exact Or.inl (hS i b hb hv)
  · unfold BucketValue.setResult
    split
    · trivial
    · next hv =>
      split
      · next he =>
        have := hS _ _ (List.getElem?_eq_getElem hlt) hv
        rwa [he] at this
      · exact hS _ _ (List.getElem?_eq_getElem hlt) hv

/-- The effect of an insertion on lookups. -/
theorem table_get_insert {W : Nat} {t t' : HashTable} {h : UInt64} {p : Nat} {r : SetResult}
    (hw : TableWf W t) (hh : h.toNat < 2 ^ W) (e : t.insert h p = .ok (r, t')) :
    t'.get h = .ok (some p) ∧
    ∀ h2 : UInt64, h2 ≠ h → t'.get h2 = t.get h2 ∨ t'.get h2 = .ok none := by
  have hlt := bucketIdx_lt hw hh
  simp only [HashTable.insert, Outcome.bind_eq_ok] at e
  obtain ⟨b, hb, e⟩ := e
  cases e
  constructor
  · have : (t.buckets.set (bucketIdx h t.shift t.mask) ⟨h, p + 1⟩)[bucketIdx h t.shift t.mask]? = some ⟨h, p + 1⟩ := by
      simp [hlt]
    simp only [HashTable.get, Outcome.bind_eq_ok]
    exact ⟨_, idx_eq_ok.2 this, by simp [BucketValue.get]⟩
  · intro h2 hne
    by_cases hi : bucketIdx h2 t.shift t.mask = bucketIdx h t.shift t.mask
    · right
      have : (t.buckets.set (bucketIdx h t.shift t.mask) ⟨h, p + 1⟩)[bucketIdx h2 t.shift t.mask]?
          = some ⟨h, p + 1⟩ := by
        rw [hi]; simp [hlt]
      simp only [HashTable.get, Outcome.bind_eq_ok]
      exact ⟨_, idx_eq_ok.2 this, by simp [BucketValue.get, Ne.symm hne]⟩
    · left
      simp only [HashTable.get, idx, List.getElem?_set]
      rw [if_neg (fun h => hi h.symm)]

/-! ## The chain -/

/-- A chain that is empty or whose capacity is a power of two. -/
def ChainWf (c : ChainList) : Prop :=
  c.positions = [] ∨ ∃ k, c.positions.length = 2 ^ k ∧ c.mask = 2 ^ k - 1

theorem chainNew_ok {cap : Nat} (h : cap = 0 ∨ ∃ k, cap = 2 ^ k) :
    ∃ c, ChainList.new cap = .ok c ∧ ChainWf c ∧ c.positions = List.replicate cap {} := by
  unfold ChainList.new
  split
  · next h0 => exact ⟨_, rfl, Or.inl rfl, by simp [h0]⟩
  · next h0 =>
    obtain h | ⟨k, hk⟩ := h
    · exact absurd h h0
    · rw [if_pos ((Nat.and_sub_one_eq_zero_iff_isPowerOfTwo h0).2 ⟨k, hk⟩)]
      exact ⟨_, rfl, Or.inr ⟨k, by simp [hk], by simp [hk]⟩, rfl⟩

theorem chainNew_eq_ok {cap : Nat} {c : ChainList} (e : ChainList.new cap = .ok c) :
    (cap = 0 ∨ ∃ k, cap = 2 ^ k) ∧ ChainWf c ∧ c.positions = List.replicate cap {} := by
  have : cap = 0 ∨ ∃ k, cap = 2 ^ k := by
    unfold ChainList.new at e
    split at e
    · next h => exact Or.inl h
    · next h =>
      split at e
      · next h1 => exact Or.inr ((Nat.and_sub_one_eq_zero_iff_isPowerOfTwo h).1 h1)
      · cases e
  obtain ⟨c', e', h⟩ := chainNew_ok this
  rw [e] at e'
  cases e'
  exact ⟨this, h⟩

theorem chain_and_lt {c : ChainList} (hw : ChainWf c) (hne : c.positions.isEmpty = false) (i : Nat) :
    i &&& c.mask < c.positions.length := by
  rcases hw with h | ⟨k, hl, hm⟩
  · rw [h] at hne; simp at hne
  · have := Nat.and_le_right (n := i) (m := c.mask)
    have := Nat.two_pow_pos k
    omega

/-- Two keys that share a bucket are equal or at least the capacity apart. -/
theorem chain_and_sep {c : ChainList} (hw : ChainWf c) (hne : c.positions.isEmpty = false) {a b : Nat} (hab : a < b)
    (h : b &&& c.mask = a &&& c.mask) : a + c.positions.length ≤ b := by
  rcases hw with h0 | ⟨k, hl, hm⟩
  · rw [h0] at hne; simp at hne
  · rw [hm, Nat.and_two_pow_sub_one_eq_mod, Nat.and_two_pow_sub_one_eq_mod] at h
    rw [hl]
    have h1 := Nat.div_add_mod a (2 ^ k)
    have h2 := Nat.div_add_mod b (2 ^ k)
    rcases Nat.lt_or_ge (a / 2 ^ k) (b / 2 ^ k) with h3 | h3
    · have := Nat.mul_le_mul_left (2 ^ k) h3
      rw [Nat.mul_succ] at this
      omega
    · have := Nat.mul_le_mul_left (2 ^ k) h3
      omega

/-- Every link of the chain points to an entry of `S` stored no later than its key, which was stored before
`hi`; in the strict case, earlier than its key. -/
def ChainHas (strict : Prop) (hi : Nat) (S : UInt64 → Nat → Prop) (c : ChainList) : Prop :=
  ∀ (i : Nat) (b : BucketValue), c.positions[i]? = some b → b.value ≠ 0 → S b.hash (b.value - 1) ∧
    ∃ k, k &&& c.mask = i ∧ k < hi ∧ b.value - 1 ≤ k ∧ (strict → b.value - 1 < k)

theorem chain_insert {strict : Prop} {hi key p : Nat} {S S' : UInt64 → Nat → Prop} {c : ChainList} {h : UInt64}
    (hw : ChainWf c) (hc : ChainHas strict hi S c) (hi' : hi ≤ key + 1) (hp : S h p) (hpk : p ≤ key)
    (hps : strict → p < key) (hSS : ∀ h p, S h p → S' h p) :
    ∃ c', c.insert h key p = .ok c' ∧ ChainWf c' ∧ ChainHas strict (key + 1) S' c' ∧
      c'.positions.length = c.positions.length := by
  unfold ChainList.insert
  by_cases hne : c.positions.isEmpty = true
  · rw [if_pos hne]
    refine ⟨c, rfl, hw, ?_, rfl⟩
    intro i b hb
    have : c.positions = [] := by simpa using hne
    rw [this] at hb
    simp at hb
  · rw [if_neg hne]
    have hne : c.positions.isEmpty = false := by simpa using hne
    have hlt := chain_and_lt hw hne key
    refine ⟨{ c with positions := c.positions.set (key &&& c.mask) ⟨h, p + 1⟩ }, ?_, ?_, ?_, by simp⟩
    · simp only [Outcome.bind_eq_ok]
      exact ⟨_, idx_eq_ok.2 (List.getElem?_eq_getElem hlt), rfl⟩
    · rcases hw with h0 | ⟨k, hl, hm⟩
      · rw [h0] at hne; simp at hne
      · exact Or.inr ⟨k, by simp [hl], hm⟩
    · intro i b hb hv
      simp only [List.getElem?_set] at hb
      split at hb
      · next he =>
        cases hb
        exact ⟨hSS _ _ (by simpa using hp), key, he, by omega, by simpa using hpk, by simpa using hps⟩
      · obtain ⟨h1, k, h2, h3, h4⟩ := hc i b hb hv
        exact ⟨hSS _ _ h1, k, h2, by omega, h4⟩

theorem chain_replicate_has {strict : Prop} {hi : Nat} {S : UInt64 → Nat → Prop} {c : ChainList} {cap : Nat}
    (h : c.positions = List.replicate cap {}) : ChainHas strict hi S c := by
  intro i b hb hv
  rw [h, List.getElem?_replicate] at hb
  split at hb
  · cases hb; exact absurd rfl hv
  · cases hb

theorem chain_get {strict : Prop} {hi : Nat} {S : UInt64 → Nat → Prop} {c : ChainList} (hw : ChainWf c)
    (hc : ChainHas strict hi S c) (last : Nat) :
    ∃ r, c.getPrevPos last = .ok r ∧ ∀ b, r = some b → c.positions.isEmpty = false ∧ b.value ≠ 0 ∧
      S b.hash (b.value - 1) ∧ ∃ k, k &&& c.mask = last &&& c.mask ∧ k < hi ∧ b.value - 1 ≤ k ∧
        (strict → b.value - 1 < k) := by
  unfold ChainList.getPrevPos
  by_cases hne : c.positions.isEmpty = true
  · rw [if_pos hne]
    exact ⟨none, rfl, by simp⟩
  · rw [if_neg hne]
    have hne : c.positions.isEmpty = false := by simpa using hne
    have hlt := chain_and_lt hw hne last
    by_cases hv : (c.positions[last &&& c.mask]).value = 0
    · refine ⟨none, ?_, by simp⟩
      simp only [Outcome.bind_eq_ok]
      exact ⟨_, idx_eq_ok.2 (List.getElem?_eq_getElem hlt), by rw [if_pos hv]; rfl⟩
    · refine ⟨some (c.positions[last &&& c.mask]), ?_, ?_⟩
      · simp only [Outcome.bind_eq_ok]
        exact ⟨_, idx_eq_ok.2 (List.getElem?_eq_getElem hlt), by rw [if_neg hv]; rfl⟩
      · rintro b hb
        cases hb
        exact ⟨hne, hv, hc _ _ (List.getElem?_eq_getElem hlt) hv⟩

/-- The walk, when every key lies before the current position and links go strictly backwards. -/
theorem chain_next {dbg : Bool} {hi cur : Nat} {S : UInt64 → Nat → Prop} {c : ChainList} (hw : ChainWf c)
    (hc : ChainHas True hi S c) (hcur : hi ≤ cur) (hash : UInt64) : ∀ (last fuel : Nat), last < fuel →
    ∃ r, c.next dbg cur hash fuel last = .ok r ∧
      ∀ p, r = some p → p < last ∧ p < cur ∧ cur - p < c.positions.length ∧ S hash p := by
  intro last
  induction last using Nat.strongRecOn with
  | ind last ih =>
    intro fuel hf
    cases fuel with
    | zero => omega
    | succ fuel =>
      obtain ⟨r, hr, hb⟩ := chain_get hw hc last
      cases r with
      | none => exact ⟨none, by simp [ChainList.next, hr], by simp⟩
      | some b =>
        obtain ⟨hne, hv, hS, k, hk1, hk2, -, hk3⟩ := hb b rfl
        have hk3 := hk3 trivial
        rw [ChainList.next, hr]
        simp only [Outcome.ok_bind]
        by_cases h1 : b.value - 1 > last
        · rw [if_pos h1]; exact ⟨none, rfl, by simp⟩
        rw [if_neg h1]
        rw [if_neg (by omega : ¬ cur < b.value - 1)]
        by_cases h2 : cur - (b.value - 1) ≥ c.positions.length
        · rw [if_pos h2]; exact ⟨none, rfl, by simp⟩
        rw [if_neg h2]
        have hlt : b.value - 1 < last := by
          rcases Nat.lt_or_ge (b.value - 1) last with h | h
          · exact h
          · have := chain_and_sep hw hne (a := last) (b := k) (by omega) hk1
            omega
        by_cases h3 : b.hash = hash
        · rw [if_pos h3]
          refine ⟨_, rfl, ?_⟩
          rintro p hp
          cases hp
          exact ⟨hlt, by omega, by omega, h3 ▸ hS⟩
        · rw [if_neg h3]
          obtain ⟨r, e, hr⟩ := ih _ hlt fuel (by omega)
          exact ⟨r, e, fun p hp => ⟨by have := (hr p hp).1; omega, (hr p hp).2⟩⟩

/-- The walk never panics if nothing was stored ahead of the current position; what it returns is not ahead of
where it started. -/
theorem chain_next_safe {dbg : Bool} {strict : Prop} {hi cur : Nat} {S : UInt64 → Nat → Prop} {c : ChainList}
    (hw : ChainWf c) (hc : ChainHas strict hi S c) (hcur : hi ≤ cur + 1) (hash : UInt64) : ∀ (fuel last : Nat),
    Safe False (c.positions ≠ []) (c.next dbg cur hash fuel last) ∨ fuel = 0 := by
  intro fuel
  induction fuel with
  | zero => intro _; exact Or.inr rfl
  | succ fuel ih =>
    intro last
    left
    obtain ⟨r, hr, hb⟩ := chain_get hw hc last
    rw [ChainList.next, hr]
    cases r with
    | none => trivial
    | some b =>
      obtain ⟨hne, hv, hS, k, hk1, hk2, hk3, -⟩ := hb b rfl
      simp only [Outcome.ok_bind]
      by_cases h1 : b.value - 1 > last
      · rw [if_pos h1]; trivial
      rw [if_neg h1, if_neg (by omega : ¬ cur < b.value - 1)]
      by_cases h2 : cur - (b.value - 1) ≥ c.positions.length
      · rw [if_pos h2]; trivial
      rw [if_neg h2]
      by_cases h3 : b.hash = hash
      · rw [if_pos h3]; trivial
      · rw [if_neg h3]
        rcases ih (b.value - 1) with h | h
        · exact h
        · subst h
          show c.positions ≠ []
          intro h0; rw [h0] at hne; simp at hne

end Smdiff
