import Verif.SpecStreams
import Verif.Lemmas.Device
import Verif.Lemmas.Cut
/-!
# Helper lemmas: reading from any `std::io::Read`
-/
namespace Smdiff
open Spec

/-! ## The readers -/

instance : LawfulRead Raw where
  content s := eventBytes s.events
  stop s := eventEnd s.events
  size_ge := by
    rintro ⟨es⟩
    induction es with
    | nil => simp [eventBytes]
    | cons e es ih =>
      have : Read.size (⟨e :: es⟩ : Raw) = e.weight + Read.size (⟨es⟩ : Raw) := by simp [Read.size]
      rw [this]
      rcases e with (_ | ⟨b, bs⟩) | _ | _ <;> simp_all [eventBytes, Event.weight] <;> omega
  got_some := by
    rintro n ⟨es⟩ s' b bs hn h
    rcases es with _ | ⟨(_ | ⟨c, cs⟩) | _ | _, es⟩ <;> simp only [Read.read] at h
    · simp at h
    · simp at h
    · by_cases hl : (c :: cs).length ≤ n
      · rw [if_pos hl] at h
        simp only [Prod.mk.injEq, ReadRes.got.injEq] at h
        obtain ⟨h1, rfl⟩ := h
        rw [← h1]
        exact ⟨rfl, rfl, hl, by simp [Read.size, Event.weight]; try omega⟩
      · rw [if_neg hl] at h
        simp only [Prod.mk.injEq, ReadRes.got.injEq] at h
        obtain ⟨h1, rfl⟩ := h
        obtain ⟨n, rfl⟩ := Nat.exists_eq_succ_of_ne_zero (Nat.pos_iff_ne_zero.1 hn)
        simp only [List.length_cons, Nat.not_le] at hl
        simp only [List.take_succ_cons, List.cons.injEq] at h1
        obtain ⟨rfl, rfl⟩ := h1
        have hne : cs.drop n ≠ [] := by
          intro h0
          have := congrArg List.length h0
          simp at this; omega
        obtain ⟨x, xs, hx⟩ := List.exists_cons_of_ne_nil hne
        refine ⟨?_, ?_, by simp; omega, ?_⟩
        · simp only [eventBytes, List.drop_succ_cons, hx]
          conv => lhs; rw [← List.take_append_drop n cs, hx]
          simp
        · simp [eventEnd, hx]
        · simp [Read.size, Event.weight]; omega
    · simp at h
    · simp at h
  got_none := by
    rintro n ⟨es⟩ s' hn h
    rcases es with _ | ⟨(_ | ⟨c, cs⟩) | _ | _, es⟩ <;> simp only [Read.read] at h
    · exact ⟨rfl, rfl⟩
    · exact ⟨rfl, rfl⟩
    · by_cases hl : (c :: cs).length ≤ n
      · rw [if_pos hl] at h; simp at h
      · rw [if_neg hl] at h
        simp at h; omega
    · simp at h
    · simp at h
  again := by
    rintro n ⟨es⟩ s' hn h
    rcases es with _ | ⟨(_ | ⟨c, cs⟩) | _ | _, es⟩ <;> simp only [Read.read] at h
    · simp at h
    · simp at h
    · by_cases hl : (c :: cs).length ≤ n
      · rw [if_pos hl] at h; simp at h
      · rw [if_neg hl] at h; simp at h
    · simp only [Prod.mk.injEq, true_and] at h
      subst h
      exact ⟨rfl, rfl, by simp [Read.size, Event.weight]⟩
    · simp at h
  failed := by
    rintro n ⟨es⟩ s' e hn h
    rcases es with _ | ⟨(_ | ⟨c, cs⟩) | _ | _, es⟩ <;> simp only [Read.read] at h
    · simp at h
    · simp at h
    · by_cases hl : (c :: cs).length ≤ n
      · rw [if_pos hl] at h; simp at h
      · rw [if_neg hl] at h; simp at h
    · simp at h
    · simp only [Prod.mk.injEq, ReadRes.failed.injEq] at h
      exact ⟨rfl, h.1⟩

section
variable {σ : Type} [Read σ] [LawfulRead σ]

omit [LawfulRead σ] in
theorem bufRead_fill (s : σ) {n : Nat} (h : ¬ BUF_SIZE ≤ n) : Read.read n (⟨s, []⟩ : BufReader σ) =
    match Read.read BUF_SIZE s with
    | (.got bs, i) => (.got (bs.take n), ⟨i, bs.drop n⟩)
    | (r, i) => (r, ⟨i, []⟩) := by
  simp only [Read.read]
  rw [if_pos trivial, if_neg h]
  rcases Read.read BUF_SIZE s with ⟨_ | _ | _, i⟩ <;> rfl

omit [LawfulRead σ] in
theorem bufRead_direct (s : σ) {n : Nat} (h : BUF_SIZE ≤ n) : Read.read n (⟨s, []⟩ : BufReader σ) =
    ((Read.read n s).1, ⟨(Read.read n s).2, []⟩) := by
  simp only [Read.read]
  rw [if_pos trivial, if_pos h]

omit [LawfulRead σ] in
theorem bufRead_buf (s : σ) (n : Nat) (b : UInt8) (bs : Bytes) : Read.read n (⟨s, b :: bs⟩ : BufReader σ) =
    (.got ((b :: bs).take n), ⟨s, (b :: bs).drop n⟩) := by
  simp only [Read.read]
  rw [if_neg (by simp)]

theorem buf_pos : 0 < BUF_SIZE := by decide

instance : LawfulRead (BufReader σ) where
  content s := s.buf ++ content s.inner
  stop s := stop s.inner
  size_ge := by
    rintro ⟨i, buf⟩
    have := LawfulRead.size_ge i
    have e : Read.size (⟨i, buf⟩ : BufReader σ) = buf.length + Read.size i := rfl
    rw [e]; simp; omega
  got_some := by
    rintro n ⟨i, buf⟩ s' b bs hn h
    have e (x : BufReader σ) : Read.size x = x.buf.length + Read.size x.inner := rfl
    simp only [e]
    rcases buf with _ | ⟨c, cs⟩
    · by_cases hb : BUF_SIZE ≤ n
      · rw [bufRead_direct i hb] at h
        rcases hr : Read.read n i with ⟨r, i'⟩
        rw [hr] at h
        simp only [Prod.mk.injEq] at h
        obtain ⟨rfl, rfl⟩ := h
        obtain ⟨h1, h2, h3, h4⟩ := LawfulRead.got_some n i i' b bs hn hr
        exact ⟨by simpa using h1, h2, h3, by simpa using h4⟩
      · rw [bufRead_fill i hb] at h
        rcases hr : Read.read BUF_SIZE i with ⟨_ | _ | _, i'⟩ <;> rw [hr] at h
        · next cs =>
          simp only [Prod.mk.injEq, ReadRes.got.injEq] at h
          obtain ⟨h0, rfl⟩ := h
          rcases cs with _ | ⟨c, cs⟩
          · simp at h0
          obtain ⟨h1, h2, h3, h4⟩ := LawfulRead.got_some _ i i' c cs buf_pos hr
          refine ⟨?_, h2, ?_, ?_⟩
          · rw [← h0]
            simp only [List.nil_append, h1]
            rw [← List.append_assoc, List.take_append_drop]
          · rw [← h0]; exact List.length_take_le _ _
          · rw [← h0]
            simp only [List.length_take, List.length_drop, List.length_nil, Nat.zero_add]
            omega
        · simp at h
        · simp at h
    · rw [bufRead_buf] at h
      simp only [Prod.mk.injEq, ReadRes.got.injEq] at h
      obtain ⟨h0, rfl⟩ := h
      refine ⟨?_, rfl, ?_, ?_⟩
      · rw [← h0, ← List.append_assoc, List.take_append_drop]
      · rw [← h0]; exact List.length_take_le _ _
      · rw [← h0]
        simp only [List.length_take, List.length_drop]
        omega
  got_none := by
    rintro n ⟨i, buf⟩ s' hn h
    rcases buf with _ | ⟨c, cs⟩
    · by_cases hb : BUF_SIZE ≤ n
      · rw [bufRead_direct i hb] at h
        rcases hr : Read.read n i with ⟨r, i'⟩
        rw [hr] at h
        simp only [Prod.mk.injEq] at h
        obtain ⟨rfl, rfl⟩ := h
        exact LawfulRead.got_none n i i' hn hr
      · rw [bufRead_fill i hb] at h
        rcases hr : Read.read BUF_SIZE i with ⟨_ | _ | _, i'⟩ <;> rw [hr] at h
        · next cs =>
          simp only [Prod.mk.injEq, ReadRes.got.injEq, List.take_eq_nil_iff] at h
          obtain ⟨h0 | rfl, rfl⟩ := h
          · omega
          exact LawfulRead.got_none _ i i' buf_pos hr
        · simp at h
        · simp at h
    · rw [bufRead_buf] at h
      simp at h; omega
  again := by
    rintro n ⟨i, buf⟩ s' hn h
    rcases buf with _ | ⟨c, cs⟩
    · by_cases hb : BUF_SIZE ≤ n
      · rw [bufRead_direct i hb] at h
        rcases hr : Read.read n i with ⟨r, i'⟩
        rw [hr] at h
        simp only [Prod.mk.injEq] at h
        obtain ⟨rfl, rfl⟩ := h
        obtain ⟨h1, h2, h3⟩ := LawfulRead.again n i i' hn hr
        exact ⟨by simpa using h1, h2, by simpa [Read.size] using h3⟩
      · rw [bufRead_fill i hb] at h
        rcases hr : Read.read BUF_SIZE i with ⟨_ | _ | _, i'⟩ <;> rw [hr] at h
        · simp at h
        · simp only [Prod.mk.injEq, true_and] at h
          subst h
          obtain ⟨h1, h2, h3⟩ := LawfulRead.again _ i i' buf_pos hr
          exact ⟨by simpa using h1, h2, by simpa [Read.size] using h3⟩
        · simp at h
    · rw [bufRead_buf] at h
      simp at h
  failed := by
    rintro n ⟨i, buf⟩ s' e hn h
    rcases buf with _ | ⟨c, cs⟩
    · by_cases hb : BUF_SIZE ≤ n
      · rw [bufRead_direct i hb] at h
        rcases hr : Read.read n i with ⟨r, i'⟩
        rw [hr] at h
        simp only [Prod.mk.injEq] at h
        obtain ⟨rfl, rfl⟩ := h
        exact LawfulRead.failed n i i' e hn hr
      · rw [bufRead_fill i hb] at h
        rcases hr : Read.read BUF_SIZE i with ⟨_ | _ | _, i'⟩ <;> rw [hr] at h
        · simp at h
        · simp at h
        · simp only [Prod.mk.injEq, ReadRes.failed.injEq] at h
          obtain ⟨rfl, rfl⟩ := h
          exact LawfulRead.failed _ i i' _ buf_pos hr
    · rw [bufRead_buf] at h
      simp at h

/-! ## Simulation -/

/-- The code `x` on readers follows the code `x'` on bytes. -/
def Follows {α : Type} (x : IOm σ α) (x' : IOm Bytes α) : Prop :=
  ∀ s, Reported (stop s) (x s).1 (x' (content s)).1 ∧
    ∀ a, (x s).1 = .ok a → content (x s).2 = (x' (content s)).2 ∧ stop (x s).2 = stop s

theorem follows_bind {α β : Type} {x : IOm σ α} {x' : IOm Bytes α} {f : α → IOm σ β} {f' : α → IOm Bytes β}
    (h : Follows x x') (hf : ∀ a, Follows (f a) (f' a)) : Follows (x >>= f) (x' >>= f') := by
  intro s
  obtain ⟨h1, h2⟩ := h s
  rw [IOm.bind_run, IOm.bind_run]
  rcases hx : x s with ⟨r, s1⟩
  rcases hx' : x' (content s) with ⟨r', c1⟩
  rw [hx, hx'] at h1
  rw [hx, hx'] at h2
  rcases h1 with h1 | ⟨h0, h1, e', h3⟩
  · simp only at h1
    subst h1
    rcases r with a | e | _ | _
    · obtain ⟨g1, g2⟩ := h2 a rfl
      simp only at g1 g2 ⊢
      obtain ⟨k1, k2⟩ := hf a s1
      rw [g1, g2] at k1
      rw [g1, g2] at k2
      exact ⟨k1, k2⟩
    all_goals exact ⟨.inl rfl, by simp⟩
  · simp only at h1 h3
    subst h1 h3
    exact ⟨.inr ⟨h0, rfl, e', rfl⟩, by simp⟩

/-- The code `x` on readers does exactly what the code `x'` does on bytes, with the reader's own error where `x'` meets
the end. -/
def Exactly {α : Type} (x : IOm σ α) (x' : IOm Bytes α) : Prop :=
  ∀ s, (x s).1 = orEnd (stop s) (x' (content s)).1 ∧
    ∀ a, (x s).1 = .ok a → content (x s).2 = (x' (content s)).2 ∧ stop (x s).2 = stop s

theorem orEnd_of_ne {α : Type} (e : Err) {r : Outcome α} (h : r ≠ .err .eof) : orEnd e r = r := by
  rcases r with _ | (_ | _ | _ | _) | _ | _ <;> first | rfl | exact absurd rfl h

theorem orEnd_ok {α : Type} {e : Err} {r : Outcome α} {a : α} (h : orEnd e r = .ok a) : r = .ok a := by
  rcases r with _ | (_ | _ | _ | _) | _ | _ <;> simp_all [orEnd]

theorem Exactly.follows {α : Type} {x : IOm σ α} {x' : IOm Bytes α} (h : Exactly x x') : Follows x x' := by
  intro s
  obtain ⟨h1, h2⟩ := h s
  refine ⟨?_, h2⟩
  by_cases he : (x' (content s)).1 = .err .eof
  · rw [h1, he]
    by_cases hs : stop s = .eof
    · exact .inl (by rw [hs]; rfl)
    · exact .inr ⟨hs, rfl, .eof, rfl⟩
  · exact .inl (by rw [h1, orEnd_of_ne _ he])

theorem exactly_pure {α : Type} (a : α) : Exactly (σ := σ) (pure a) (pure a) :=
  fun _ => ⟨rfl, fun _ _ => ⟨rfl, rfl⟩⟩

theorem exactly_lift {α : Type} {r : Outcome α} (h : r ≠ .err .eof) :
    Exactly (σ := σ) (IOm.lift r) (IOm.lift r) :=
  fun _ => ⟨(orEnd_of_ne _ h).symm, fun _ _ => ⟨rfl, rfl⟩⟩

theorem exactly_throw {α : Type} {e : Err} (h : e ≠ .eof) : Exactly (σ := σ) (α := α) (IOm.throw e) (IOm.throw e) :=
  exactly_lift (r := .err e) (fun h' => h (by simpa using h'))

theorem exactly_bind {α β : Type} {x : IOm σ α} {x' : IOm Bytes α} {f : α → IOm σ β} {f' : α → IOm Bytes β}
    (h : Exactly x x') (hf : ∀ a, Exactly (f a) (f' a)) : Exactly (x >>= f) (x' >>= f') := by
  intro s
  obtain ⟨h1, h2⟩ := h s
  rw [IOm.bind_run, IOm.bind_run]
  rcases hx : x s with ⟨r, s1⟩
  rcases hx' : x' (content s) with ⟨r', c1⟩
  rw [hx, hx'] at h1
  rw [hx, hx'] at h2
  simp only at h1
  subst h1
  rcases r' with a | (_ | _ | _ | _) | _ | _
  · obtain ⟨g1, g2⟩ := h2 a rfl
    simp only [orEnd] at g1 g2 ⊢
    obtain ⟨k1, k2⟩ := hf a s1
    rw [g1, g2] at k1
    rw [g1, g2] at k2
    exact ⟨k1, k2⟩
  all_goals exact ⟨rfl, by simp [orEnd]⟩

theorem exactly_ite {α : Type} {c : Prop} [Decidable c] {x y : IOm σ α} {x' y' : IOm Bytes α}
    (h : c → Exactly x x') (h' : ¬ c → Exactly y y') : Exactly (if c then x else y) (if c then x' else y') := by
  by_cases hc : c
  · rw [if_pos hc, if_pos hc]; exact h hc
  · rw [if_neg hc, if_neg hc]; exact h' hc

theorem idx_ne {α : Type} (bs : List α) (i : Nat) : idx bs i ≠ .err .eof := by
  unfold idx; cases bs[i]? <;> simp

theorem addU32_ne (dbg : Bool) (a b : UInt32) : addU32 dbg a b ≠ .err .eof := by
  unfold addU32; split <;> simp

theorem diffAddr_ne (dbg : Bool) (a : UInt64) (b : BitVec 64) : diffAddressesToU64 dbg a b ≠ .err .eof := by
  unfold diffAddressesToU64
  split
  · simp
  · split <;> simp

/-- Enough fuel: `read_exact` gives the next `n` bytes, or reports what is behind the content. -/
theorem readExactLoop_spec : ∀ (f n : Nat) (s : σ), Read.size s < f →
    (n ≤ (content s).length → ∃ s', On.readExactLoop f n s = (.ok ((content s).take n), s') ∧
      content s' = (content s).drop n ∧ stop s' = stop s) ∧
    ((content s).length < n → (On.readExactLoop f n s).1 = .err (stop s)) := by
  intro f
  induction f with
  | zero => intro n s h; omega
  | succ f ih =>
    intro n s hf
    rcases n with _ | n
    · exact ⟨fun _ => ⟨s, by simp [On.readExactLoop], by simp, rfl⟩, fun h => by omega⟩
    · rw [On.readExactLoop]
      rcases hr : Read.read (n + 1) s with ⟨(_ | ⟨b, bs⟩) | _ | e, s'⟩
      · obtain ⟨h1, h2⟩ := LawfulRead.got_none _ s s' (by omega) hr
        simp only [h1, h2]
        exact ⟨fun h => by simp at h, fun _ => trivial⟩
      · obtain ⟨h1, h2, h3, h4⟩ := LawfulRead.got_some _ s s' b bs (by omega) hr
        simp only [List.length_cons] at h3 h4
        obtain ⟨g1, g2⟩ := ih (n + 1 - (b :: bs).length) s' (by omega)
        have hl : (content s).length = (b :: bs).length + (content s').length := by
          rw [h1, List.length_append]
        constructor
        · intro hn
          obtain ⟨s2, k1, k2, k3⟩ := g1 (by omega)
          refine ⟨s2, ?_, ?_, by rw [k3, h2]⟩
          · simp only [k1]
            rw [h1, List.take_append, List.take_of_length_le (show (b :: bs).length ≤ n + 1 by simpa using h3)]
          · rw [k2, h1, List.drop_append, List.drop_of_length_le (show (b :: bs).length ≤ n + 1 by simpa using h3)]
            simp
        · intro hn
          have k := g2 (by omega)
          rcases hx : On.readExactLoop f (n + 1 - (b :: bs).length) s' with ⟨r, s2⟩
          rw [hx] at k
          simp only at k
          subst k
          rw [← h2]
          simp only
          rw [hx]
      · obtain ⟨h1, h2, h3⟩ := LawfulRead.again _ s s' (by omega) hr
        obtain ⟨g1, g2⟩ := ih (n + 1) s' (by omega)
        rw [h1] at g1 g2
        rw [h2] at g1 g2
        exact ⟨g1, g2⟩
      · obtain ⟨h1, h2⟩ := LawfulRead.failed _ s s' e (by omega) hr
        simp only [h1, h2]
        exact ⟨fun h => by simp at h, fun _ => trivial⟩

theorem exactly_readExact (n : Nat) : Exactly (σ := σ) (On.readExact n) (readExact n) := by
  intro s
  obtain ⟨h1, h2⟩ := readExactLoop_spec (Read.size s + 1) n s (by omega)
  unfold On.readExact readExact
  by_cases h : n ≤ (content s).length
  · obtain ⟨s', k1, k2, k3⟩ := h1 h
    rw [k1, if_pos h]
    exact ⟨rfl, fun _ _ => ⟨k2, k3⟩⟩
  · have k := h2 (by omega)
    rw [if_neg h]
    exact ⟨by rw [k]; rfl, fun a ha => by rw [k] at ha; simp at ha⟩

/-! ## The code -/

theorem readU8_eq : readU8 = (do let bs ← readExact 1; IOm.lift (idx bs 0) : IOm Bytes UInt8) := by
  funext s
  rcases s with _ | ⟨b, s⟩ <;> rfl

theorem exactly_readU8 : Exactly (σ := σ) On.readU8 readU8 := by
  rw [readU8_eq]
  exact exactly_bind (exactly_readExact 1) fun _ => exactly_lift (idx_ne _ _)

theorem readU16_eq : readU16 = (do
    let bs ← readExact 2
    let lo ← IOm.lift (idx bs 0)
    let hi ← IOm.lift (idx bs 1)
    return lo.toUInt16 ||| (hi.toUInt16 <<< 8) : IOm Bytes UInt16) := by
  funext s
  rcases s with _ | ⟨b, _ | ⟨c, s⟩⟩ <;> rfl

theorem exactly_readU16 : Exactly (σ := σ) On.readU16 readU16 := by
  rw [readU16_eq]
  exact exactly_bind (exactly_readExact 2) fun _ => exactly_bind (exactly_lift (idx_ne _ _)) fun _ =>
    exactly_bind (exactly_lift (idx_ne _ _)) fun _ => exactly_pure _

theorem readUVarintLoop_eq (dbg : Bool) (result : UInt64) (shift : Nat) : readUVarintLoop dbg result shift = (do
    let byte ← readU8
    let (result, last) ← IOm.lift (On.varintStep dbg result shift byte)
    if last then return result else readUVarintLoop dbg result (shift + 7) : IOm Bytes UInt64) := by
  funext s
  rcases s with _ | ⟨b, s⟩
  · rfl
  · rw [readUVarintLoop]
    simp only [IOm.bind_run, readU8, On.varintStep]
    by_cases h : (dbg && decide (64 ≤ shift)) = true
    · rw [if_pos h, if_pos h]; rfl
    · rw [if_neg h, if_neg h]
      simp only [IOm.lift_run]
      by_cases hb : b &&& 0x80 = 0 <;> simp [hb]

theorem exactly_varintLoop (dbg : Bool) : ∀ (f : Nat) (result : UInt64) (shift : Nat) (s : σ),
    (content s).length < f →
    (On.readUVarintLoop dbg f result shift s).1 = orEnd (stop s) (readUVarintLoop dbg result shift (content s)).1 ∧
    ∀ a, (On.readUVarintLoop dbg f result shift s).1 = .ok a →
      content (On.readUVarintLoop dbg f result shift s).2 = (readUVarintLoop dbg result shift (content s)).2 ∧
      stop (On.readUVarintLoop dbg f result shift s).2 = stop s := by
  intro f
  induction f with
  | zero => intro _ _ s h; omega
  | succ f ih =>
    intro result shift s hf
    rw [readUVarintLoop_eq, On.readUVarintLoop]
    have hu := exactly_readU8 s
    simp only [IOm.bind_run]
    rcases hx : On.readU8 s with ⟨r, s1⟩
    rcases hx' : readU8 (content s) with ⟨r', c1⟩
    rw [hx, hx'] at hu
    obtain ⟨h1, h2⟩ := hu
    simp only at h1
    subst h1
    rcases r' with b | (_ | _ | _ | _) | _ | _
    · obtain ⟨g1, g2⟩ := h2 b rfl
      simp only [orEnd] at g1 g2 ⊢
      simp only [IOm.lift_run, On.varintStep]
      by_cases hd : (dbg && decide (64 ≤ shift)) = true
      · rw [if_pos hd]; exact ⟨rfl, by simp⟩
      · rw [if_neg hd]
        simp only
        by_cases hb : b &&& 0x80 = 0
        · simp only [hb, decide_true, if_true]
          exact ⟨rfl, fun _ _ => ⟨g1, g2⟩⟩
        · simp only [hb, decide_false, Bool.false_eq_true, if_false]
          have hlt : (content s1).length < f := by
            rw [g1]
            have : c1.length < (content s).length := by
              rcases hc : content s with _ | ⟨y, ys⟩
              · rw [hc] at hx'; simp [readU8] at hx'
              · rw [hc] at hx'; simp only [readU8, Prod.mk.injEq] at hx'; rw [← hx'.2]; simp
            omega
          obtain ⟨k1, k2⟩ := ih (result ||| ((b &&& 0x7F).toUInt64 <<< (UInt64.ofNat (shift % 64)))) (shift + 7) s1 hlt
          rw [g1, g2] at k1
          rw [g1, g2] at k2
          exact ⟨k1, k2⟩
    all_goals exact ⟨rfl, by simp [orEnd]⟩

theorem exactly_readUVarint (dbg : Bool) : Exactly (σ := σ) (On.readUVarint dbg) (readUVarint dbg) := fun s =>
  exactly_varintLoop dbg _ 0 0 s (by have := LawfulRead.size_ge s; omega)

theorem exactly_readIVarint (dbg : Bool) : Exactly (σ := σ) (On.readIVarint dbg) (readIVarint dbg) :=
  exactly_bind (exactly_readUVarint dbg) fun _ => exactly_pure _

theorem exactly_header (dbg : Bool) : Exactly (σ := σ) (On.readSectionHeader dbg) (readSectionHeader dbg) := by
  unfold On.readSectionHeader readSectionHeader
  refine exactly_bind exactly_readU8 fun b => ?_
  refine exactly_bind (exactly_readUVarint dbg) fun _ => ?_
  dsimp only
  generalize (if b &&& SECTION_FORMAT_BIT = SECTION_FORMAT_BIT then Format.segregated else Format.interleaved) = fmt
  cases fmt
  · simp only [reduceCtorEq, if_false]
    exact exactly_bind (exactly_pure _) fun _ => exactly_bind (exactly_readUVarint dbg) fun _ =>
      exactly_bind (exactly_pure _) fun _ => exactly_pure _
  · simp only [if_true]
    refine exactly_bind (exactly_readUVarint dbg) fun _ => exactly_bind (exactly_pure _) fun _ =>
      exactly_bind (exactly_readUVarint dbg) fun _ => exactly_bind (exactly_lift (addU32_ne _ _ _)) fun _ => exactly_pure _

theorem exactly_opByte : Exactly (σ := σ) On.readOpByte readOpByte := by
  unfold On.readOpByte readOpByte
  refine exactly_bind exactly_readU8 fun b => ?_
  exact exactly_ite (fun _ => exactly_pure _) fun _ => exactly_ite (fun _ => exactly_pure _) fun _ =>
    exactly_ite (fun _ => exactly_pure _) fun _ => exactly_ite (fun _ => exactly_pure _) fun _ => exactly_throw (by decide)

theorem exactly_size (n : Size) : Exactly (σ := σ) (On.readSize n) (readSize n) := by
  cases n
  · exact exactly_pure _
  · exact exactly_bind exactly_readU8 fun _ => exactly_pure _
  · exact exactly_readU16

theorem exactly_readOp (dbg : Bool) (a : Addrs) (il : Bool) :
    Exactly (σ := σ) (On.readOp dbg a il) (readOp dbg a il) := by
  unfold On.readOp readOp
  refine exactly_bind exactly_opByte fun x => ?_
  obtain ⟨op, size⟩ := x
  refine exactly_ite (fun _ => exactly_throw (by decide)) fun _ => ?_
  refine exactly_bind (exactly_size size) fun n => ?_
  rcases op with (_ | _) | _ | _
  · exact exactly_bind (exactly_readIVarint dbg) fun _ => exactly_bind (exactly_lift (diffAddr_ne _ _ _)) fun _ => exactly_pure _
  · exact exactly_bind (exactly_readIVarint dbg) fun _ => exactly_bind (exactly_lift (diffAddr_ne _ _ _)) fun _ => exactly_pure _
  · cases il
    · exact exactly_bind (exactly_pure _) fun _ => exactly_pure _
    · exact exactly_bind (exactly_readExact _) fun _ => exactly_pure _
  · exact exactly_bind exactly_readU8 fun _ => exactly_pure _

theorem exactly_inter (dbg : Bool) (n : Nat) : ∀ a c,
    Exactly (σ := σ) (On.readOpsInter dbg n a c) (readOpsInter dbg n a c) := by
  induction n with
  | zero => intro a c; exact exactly_pure _
  | succ n ih =>
    intro a c
    rw [On.readOpsInter, readOpsInter]
    exact exactly_bind (exactly_readOp dbg a true) fun _ => exactly_bind (exactly_lift (addU32_ne _ _ _)) fun _ =>
      exactly_bind (ih _ _) fun _ => exactly_pure _

theorem exactly_seg (dbg : Bool) (n : Nat) : ∀ a c m,
    Exactly (σ := σ) (On.readOpsSeg dbg n a c m) (readOpsSeg dbg n a c m) := by
  induction n with
  | zero => intro a c m; exact exactly_pure _
  | succ n ih =>
    intro a c m
    rw [On.readOpsSeg, readOpsSeg]
    refine exactly_bind (exactly_readOp dbg a false) fun x => exactly_bind (exactly_lift (addU32_ne _ _ _)) fun _ => ?_
    obtain ⟨op, a'⟩ := x
    cases op.isAdd
    · simp only [Bool.false_eq_true, if_false]
      exact exactly_bind (exactly_pure _) fun _ => exactly_bind (ih _ _ _) fun _ => exactly_pure _
    · simp only [if_true]
      exact exactly_bind (exactly_lift (addU32_ne _ _ _)) fun _ => exactly_bind (ih _ _ _) fun _ => exactly_pure _

theorem exactly_fill (ops : List Op) : Exactly (σ := σ) (On.fillAdds ops) (fillAdds ops) := by
  induction ops with
  | nil => exact exactly_pure _
  | cons op ops ih =>
    rcases op with _ | _ | bs
    · exact exactly_bind ih fun _ => exactly_pure _
    · exact exactly_bind ih fun _ => exactly_pure _
    · exact exactly_bind (exactly_readExact _) fun _ => exactly_bind ih fun _ => exactly_pure _

theorem exactly_ops (dbg : Bool) (h : SectionHeader) :
    Exactly (σ := σ) (On.readOpsNoComp dbg h) (readOpsNoComp dbg h) := by
  unfold On.readOpsNoComp readOpsNoComp
  rcases h.format
  · exact exactly_bind (exactly_inter dbg _ _ _) fun _ => exactly_ite (fun _ => exactly_throw (by decide)) fun _ =>
      exactly_pure _
  · exact exactly_bind (exactly_seg dbg _ _ _ _) fun _ => exactly_ite (fun _ => exactly_throw (by decide)) fun _ =>
      exactly_bind (exactly_fill _) fun _ => exactly_pure _

theorem exactly_section (dbg : Bool) : Exactly (σ := σ) (On.readSection dbg) (readSection dbg) :=
  exactly_bind (exactly_header dbg) fun _ => exactly_ops dbg _

/-! ## Devices: fuel -/

theorem applyLoopOn_fuel {τ : Type} [Device τ] {rd : IOm Bytes (List Op × SectionHeader)} (hrd : Consumes rd)
    (src : Option Bytes) : ∀ (f : Nat) (it : SectionIterator) (pos : Nat) (c : τ),
    1 ≤ f → (it.done = false → it.source.length + 2 ≤ f) → ∀ k,
    applyLoopOn rd src (f + k) it pos c = applyLoopOn rd src f it pos c := by
  intro f
  induction f with
  | zero => intro it pos c h; omega
  | succ f ih =>
    intro it pos c _ hl k
    rw [show f + 1 + k = (f + k) + 1 by omega, applyLoopOn, applyLoopOn]
    unfold SectionIterator.nextWith
    cases hd : it.done
    · simp only [Bool.false_eq_true, if_false]
      rcases hr : rd it.source with ⟨r, rest⟩
      rcases r with ⟨ops, sh⟩ | e | _ | _
      · have hlt := hrd _ _ _ hr
        have hf := hl hd
        simp only [IOm.bind_run]
        rcases applyOpsOn src ops pos c with ⟨r, c'⟩
        cases r <;> simp only
        apply ih _ _ _ (by omega)
        intro hdone
        simp only at hdone ⊢
        omega
      · rfl
      · rfl
      · rfl
    · simp

/-! ## The loops -/

/-- The loop follows the loop on bytes; the sink is always the same. -/
theorem follows_loop {rd : IOm σ (List Op × SectionHeader)} {rd' : IOm Bytes (List Op × SectionHeader)}
    (hrd : Follows rd rd') (src : Option Bytes) : ∀ (f : Nat) (s : σ) (done : Bool) (pos : Nat) (c : Cursor),
    Reported (stop s) (On.applyLoop rd src f ⟨s, done⟩ pos c).1 (applyLoop rd' src f ⟨content s, done⟩ pos c).1 ∧
    (On.applyLoop rd src f ⟨s, done⟩ pos c).2.2 = (applyLoop rd' src f ⟨content s, done⟩ pos c).2.2 ∧
    ((On.applyLoop rd src f ⟨s, done⟩ pos c).1 = .ok () →
      content (On.applyLoop rd src f ⟨s, done⟩ pos c).2.1 = (applyLoop rd' src f ⟨content s, done⟩ pos c).2.1 ∧
      stop (On.applyLoop rd src f ⟨s, done⟩ pos c).2.1 = stop s) := by
  intro f
  induction f with
  | zero => intro s done pos c; exact ⟨.inl rfl, rfl, by simp [On.applyLoop]⟩
  | succ f ih =>
    intro s done pos c
    rw [On.applyLoop, applyLoop]
    unfold On.Iter.nextWith SectionIterator.nextWith
    cases done
    · simp only [Bool.false_eq_true, if_false]
      obtain ⟨h1, h2⟩ := hrd s
      rcases hx : rd s with ⟨r, s1⟩
      rcases hx' : rd' (content s) with ⟨r', c1⟩
      rw [hx, hx'] at h1
      rw [hx, hx'] at h2
      rcases h1 with h1 | ⟨h0, h1, e', h3⟩
      · simp only at h1
        subst h1
        rcases r with ⟨ops, sh⟩ | e | _ | _
        · obtain ⟨g1, g2⟩ := h2 _ rfl
          simp only at g1 g2 ⊢
          rw [applyOpsOn_cursor]
          rcases applyOps src ops pos c with ⟨_ | _ | _ | _, c'⟩
          · next pos' =>
            obtain ⟨k1, k2, k3⟩ := ih s1 (if (!sh.moreSections) = true then true else false) pos' c'
            rw [g1, g2] at k1
            rw [g1] at k2
            rw [g1, g2] at k3
            exact ⟨k1, k2, k3⟩
          all_goals exact ⟨.inl rfl, rfl, by simp⟩
        all_goals exact ⟨.inl rfl, rfl, by simp⟩
      · simp only at h1 h3
        subst h1 h3
        exact ⟨.inr ⟨h0, rfl, e', rfl⟩, rfl, by simp⟩
    · exact ⟨.inl rfl, rfl, fun _ => ⟨rfl, rfl⟩⟩

theorem follows_loopOn {τ : Type} [Device τ] {rd : IOm σ (List Op × SectionHeader)}
    {rd' : IOm Bytes (List Op × SectionHeader)}
    (hrd : Follows rd rd') (src : Option Bytes) : ∀ (f : Nat) (s : σ) (done : Bool) (pos : Nat) (c : τ),
    Reported (stop s) (On.applyLoop rd src f ⟨s, done⟩ pos c).1 (applyLoopOn rd' src f ⟨content s, done⟩ pos c).1 ∧
    (On.applyLoop rd src f ⟨s, done⟩ pos c).2.2 = (applyLoopOn rd' src f ⟨content s, done⟩ pos c).2 := by
  intro f
  induction f with
  | zero => intro s done pos c; exact ⟨.inl rfl, rfl⟩
  | succ f ih =>
    intro s done pos c
    rw [On.applyLoop, applyLoopOn]
    unfold On.Iter.nextWith SectionIterator.nextWith
    cases done
    · simp only [Bool.false_eq_true, if_false]
      obtain ⟨h1, h2⟩ := hrd s
      rcases hx : rd s with ⟨r, s1⟩
      rcases hx' : rd' (content s) with ⟨r', c1⟩
      rw [hx, hx'] at h1
      rw [hx, hx'] at h2
      rcases h1 with h1 | ⟨h0, h1, e', h3⟩
      · simp only at h1
        subst h1
        rcases r with ⟨ops, sh⟩ | e | _ | _
        · obtain ⟨g1, g2⟩ := h2 _ rfl
          simp only at g1 g2 ⊢
          rw [IOm.bind_run]
          rcases applyOpsOn src ops pos c with ⟨_ | _ | _ | _, c'⟩
          · next pos' =>
            obtain ⟨k1, k2⟩ := ih s1 (if (!sh.moreSections) = true then true else false) pos' c'
            rw [g1, g2] at k1
            rw [g1] at k2
            exact ⟨k1, k2⟩
          all_goals exact ⟨.inl rfl, rfl⟩
        all_goals exact ⟨.inl rfl, rfl⟩
      · simp only at h1 h3
        subst h1 h3
        exact ⟨.inr ⟨h0, rfl, e', rfl⟩, rfl⟩
    · exact ⟨.inl rfl, rfl⟩

theorem follows_noSecComp (dbg : Bool) (s : σ) :
    Reported (stop s) (On.applyNoSecComp dbg s).1 (applyNoSecComp dbg none (content s) .empty).1 ∧
    (On.applyNoSecComp dbg s).2.2 = (applyNoSecComp dbg none (content s) .empty).2.2 ∧
    ((On.applyNoSecComp dbg s).1 = .ok () →
      content (On.applyNoSecComp dbg s).2.1 = (applyNoSecComp dbg none (content s) .empty).2.1 ∧
      stop (On.applyNoSecComp dbg s).2.1 = stop s) := by
  have hs := LawfulRead.size_ge s
  have := applyLoop_fuel (consumes_readSection dbg) none ((content s).length + 2) (.new (content s)) 0 .empty
    (by omega) (fun _ => by simp [SectionIterator.new]) (Read.size s - (content s).length)
  unfold applyNoSecComp On.applyNoSecComp
  rw [← this, show (content s).length + 2 + (Read.size s - (content s).length) = Read.size s + 2 by omega]
  exact follows_loop (exactly_section dbg).follows none _ s false 0 .empty

/-! ## Compressed sections -/

omit [Read σ] [LawfulRead σ] in
theorem through_view (dbg : Bool) (h : SectionHeader) {d : On.DecompressorOn σ} {d' : Decompressor} {e : Err}
    (hd : d.data = d'.data) (hs : Reported e d.stop d'.stop) :
    (readOpsThrough dbg h d.view).2 = (readOpsThrough dbg h d').2 ∧
    Reported e (readOpsThrough dbg h d.view).1 (readOpsThrough dbg h d').1 := by
  unfold readOpsThrough On.DecompressorOn.view
  simp only [hd]
  rcases readOpsNoComp dbg h d'.data with ⟨_ | (_ | _ | _ | _) | _ | _, rest⟩
  case err.eof =>
    refine ⟨rfl, ?_⟩
    rcases hs with hs | ⟨h0, h1, e', h2⟩
    · rw [hs]; exact .inl rfl
    · rw [h1, h2]; exact .inr ⟨h0, rfl, e', rfl⟩
  all_goals exact ⟨rfl, .inl rfl⟩

theorem follows_readOpsComp (dbg : Bool) {on : On.CodecOn σ} {cdc : Codec} (hc : Follow on cdc) (h : SectionHeader) :
    Follows (On.readOpsComp dbg on h) (readOpsComp dbg cdc h) := by
  intro s
  unfold On.readOpsComp readOpsComp
  by_cases h1 : h.compressionAlgo = 1
  · rw [if_pos h1, if_pos h1]
    obtain ⟨g1, g2, g3⟩ := follows_noSecComp dbg s
    rcases hx : On.applyNoSecComp dbg s with ⟨r, s1, c⟩
    rcases hx' : applyNoSecComp dbg none (content s) .empty with ⟨r', c1, c'⟩
    rw [hx, hx'] at g1
    rw [hx, hx'] at g2
    rw [hx, hx'] at g3
    simp only at g1 g2 g3
    subst g2
    rcases g1 with rfl | ⟨h0, rfl, e', rfl⟩
    · rcases r with _ | _ | _ | _
      · exact ⟨.inl rfl, fun _ _ => g3 rfl⟩
      all_goals exact ⟨.inl rfl, by simp⟩
    · exact ⟨.inr ⟨h0, rfl, e', rfl⟩, by simp⟩
  · rw [if_neg h1, if_neg h1]
    by_cases h2 : h.compressionAlgo = 2
    · rw [if_pos h2, if_pos h2]
      rcases (hc s).1 with ⟨d, d', e1, e2, hd, hs, hl⟩ | ⟨e2, e1⟩ | ⟨e2, e1⟩ | ⟨e, e', e1, e2, he⟩ <;> rw [e1, e2]
      · obtain ⟨k1, k2⟩ := through_view dbg h hd hs
        refine ⟨k2, fun a _ => ?_⟩
        simp only [k1]
        exact ⟨(hl _).1, (hl _).2.1⟩
      all_goals exact ⟨.inl rfl, by simp⟩
    · rw [if_neg h2, if_neg h2]
      by_cases h3 : h.compressionAlgo = 3
      · rw [if_pos h3, if_pos h3]
        rcases (hc s).2 with ⟨d, d', e1, e2, hd, hs, hl⟩ | ⟨e2, e1⟩ | ⟨e2, e1⟩ | ⟨e, e', e1, e2, he⟩ <;> rw [e1, e2]
        · obtain ⟨k1, k2⟩ := through_view dbg h hd hs
          simp only [k1]
          obtain ⟨l1, l2, l3⟩ := hl (readOpsThrough dbg h d').2
          refine ⟨?_, fun a _ => ⟨l1, l2⟩⟩
          rcases k2 with k2 | ⟨h0, k2, e', k3⟩
          · rw [k2]
            rcases (readOpsThrough dbg h d').1 with x | _ | _ | _
            · simp only [Outcome.ok_bind]
              rcases l3 with l3 | ⟨h0, l3, e', l4⟩
              · rw [l3]; exact .inl rfl
              · rw [l3, l4]; exact .inr ⟨h0, rfl, e', rfl⟩
            all_goals exact .inl rfl
          · rw [k2, k3]; exact .inr ⟨h0, rfl, e', rfl⟩
        · exact ⟨.inl rfl, by simp⟩
        · exact ⟨.inl rfl, by simp⟩
        · rcases he with rfl | ⟨h0, rfl⟩
          · exact ⟨.inl rfl, by simp⟩
          · exact ⟨.inr ⟨h0, rfl, e', rfl⟩, by simp⟩
      · rw [if_neg h3, if_neg h3]
        exact (exactly_ops dbg h).follows s

theorem follows_sectionComp (dbg : Bool) {on : On.CodecOn σ} {cdc : Codec} (hc : Follow on cdc) :
    Follows (On.readSectionComp dbg on) (readSectionComp dbg cdc) :=
  follows_bind (exactly_header dbg).follows fun h => follows_readOpsComp dbg hc h

/-! ## Readers that fail in the middle of a good patch -/

theorem exactly_cut {α : Type} {x : IOm σ α} {x' : IOm Bytes α} (h : Exactly x x') (hc : Cuttable x') {s : σ}
    {q r : Bytes} {a : α} (e : x' (content s ++ q) = (.ok a, r)) :
    (∃ s', x s = (.ok a, s') ∧ r = content s' ++ q ∧ stop s' = stop s) ∨ (x s).1 = .err (stop s) := by
  obtain ⟨h1, h2⟩ := h s
  rcases hc _ _ _ _ e with ⟨r', rfl, e'⟩ | e'
  · left
    rw [e'] at h1 h2
    obtain ⟨g1, g2⟩ := h2 a h1
    exact ⟨(x s).2, by rw [← show (x s).1 = .ok a from h1], by rw [g1], g2⟩
  · right
    rw [h1, e']; rfl

theorem loop_cut {rd : IOm σ (List Op × SectionHeader)} {rd' : IOm Bytes (List Op × SectionHeader)}
    {G : SectionHeader → Prop} (q : Bytes)
    (hrd : ∀ s ops sh r, rd' (content s ++ q) = (.ok (ops, sh), r) → G sh →
      (∃ s', rd s = (.ok (ops, sh), s') ∧ r = content s' ++ q ∧ stop s' = stop s) ∨ (rd s).1 = .err (stop s))
    (src : Option Bytes) : ∀ (f : Nat) (ss : List (List Op × SectionHeader)) (s : σ) (out out' : Bytes) (p : Nat)
    (r : Bytes), MoreBits ss → ReadSeq rd' ss (content s ++ q) r → (∀ t ∈ ss, G t.2) →
    exec src (ss.flatMap (·.1)) out = some out' →
    (On.applyLoop rd src f ⟨s, false⟩ out.length (⟨out, p⟩ : Cursor)).1 = .ok () ∨
    (On.applyLoop rd src f ⟨s, false⟩ out.length (⟨out, p⟩ : Cursor)).1 = .err (stop s) ∨
    (On.applyLoop rd src f ⟨s, false⟩ out.length (⟨out, p⟩ : Cursor)).1 = .diverge := by
  intro f
  induction f with
  | zero => intro ss s out out' p r _ _ _ _; exact .inr (.inr rfl)
  | succ f ih =>
    intro ss s out out' p r hm hs hG he
    rw [On.applyLoop]
    unfold On.Iter.nextWith
    simp only [Bool.false_eq_true, if_false]
    cases hs with
    | nil => cases hm
    | cons ops sh ss' _ mid _ hr hs' =>
      rw [List.flatMap_cons, exec_append, Option.bind_eq_some_iff] at he
      obtain ⟨o, hx, he⟩ := he
      rcases hrd s ops sh mid hr (hG (ops, sh) (by simp)) with ⟨s', e1, e2, e3⟩ | e1
      · rw [e1]
        simp only
        have ha := applyOps_some (old := []) (p := p) hx
        simp only [over_nil] at ha
        rw [applyOpsOn_cursor, ha]
        simp only
        cases hm with
        | last _ hmore =>
          have hm' : sh.moreSections = false := hmore
          rw [hm']
          rcases f with _ | f
          · exact .inr (.inr rfl)
          · exact .inl rfl
        | more _ _ hmore hm =>
          have hm' : sh.moreSections = true := hmore
          rw [hm']
          rw [e2] at hs'
          simp only [Bool.not_true, Bool.false_eq_true, if_false]
          rw [← e3]
          exact ih ss' s' o out' _ r hm hs' (fun t ht => hG t (by simp [ht])) he
      · rcases hx : rd s with ⟨x, s1⟩
        rw [hx] at e1
        simp only at e1
        subst e1
        exact .inr (.inl rfl)

theorem reported_cases {α : Type} {e : Err} {r r' : Outcome α} (h : Reported e r r') (h' : r' = .err .eof)
    {a : α} (hr : r = .ok a ∨ r = .err e ∨ r = .diverge) : r = .err e := by
  rcases hr with hr | hr | hr
  · rcases h with h | ⟨-, h, -⟩
    · rw [h, h'] at hr; simp at hr
    · rw [h] at hr; simp at hr
  · exact hr
  · rcases h with h | ⟨-, h, -⟩
    · rw [h, h'] at hr; simp at hr
    · rw [h] at hr; simp at hr

theorem noSecComp_cut (dbg : Bool) {s : σ} {q r : Bytes} {c' : Cursor}
    (h : applyNoSecComp dbg none (content s ++ q) .empty = (.ok (), r, c')) :
    (∃ s', On.applyNoSecComp dbg s = (.ok (), s', c') ∧ r = content s' ++ q ∧ stop s' = stop s) ∨
      (On.applyNoSecComp dbg s).1 = .err (stop s) := by
  obtain ⟨g1, g2, g3⟩ := follows_noSecComp dbg s
  rcases applyNoSecComp_cut dbg h with ⟨r', rfl, e⟩ | e
  · left
    rw [e] at g1 g2 g3
    have ok : (On.applyNoSecComp dbg s).1 = .ok () := by
      rcases g1 with g1 | ⟨-, -, e', g1⟩
      · exact g1
      · simp at g1
    obtain ⟨k1, k2⟩ := g3 ok
    refine ⟨(On.applyNoSecComp dbg s).2.1, ?_, by rw [k1], k2⟩
    rw [← ok, ← show _ = c' from g2]
  · right
    obtain ⟨ss, s', h1, h2, -⟩ := applyLoop_inv (out := []) (p := 0) h
    obtain ⟨hm, rfl, he⟩ := h2 rfl
    exact reported_cases g1 e (loop_cut (G := fun _ => True) q
      (fun s ops sh r e _ => exactly_cut (exactly_section dbg) (cuttable_of_stable (stable_readSection dbg)) e)
      none _ ss s [] c'.data 0 s' hm h1 (fun _ _ => trivial) he)

theorem sectionComp_cut (dbg : Bool) {on : On.CodecOn σ} {cdc : Codec} {s : σ} {q r : Bytes} {ops : List Op}
    {sh : SectionHeader} (h : readSectionComp dbg cdc (content s ++ q) = (.ok (ops, sh), r))
    (h2 : sh.compressionAlgo ≠ 2) (h3 : sh.compressionAlgo ≠ 3) :
    (∃ s', On.readSectionComp dbg on s = (.ok (ops, sh), s') ∧ r = content s' ++ q ∧ stop s' = stop s) ∨
      (On.readSectionComp dbg on s).1 = .err (stop s) := by
  unfold readSectionComp at h
  unfold On.readSectionComp
  obtain ⟨sh0, mid, e1, e2⟩ := IOm.bind_eq_ok h
  have ha := readOpsComp_algo e2
  rw [ha] at h2 h3
  rcases exactly_cut (exactly_header dbg) (cuttable_of_stable (stable_readSectionHeader dbg)) e1 with
    ⟨s1, k1, rfl, k3⟩ | k1
  · rw [IOm.bind_ok k1, ← k3]
    unfold readOpsComp at e2
    unfold On.readOpsComp
    by_cases c1 : sh0.compressionAlgo = 1
    · rw [if_pos c1] at e2 ⊢
      rcases hx : applyNoSecComp dbg none (content s1 ++ q) .empty with ⟨x, rest', crsr⟩
      rw [hx] at e2
      rcases x with _ | _ | _ | _ <;> simp only [Prod.mk.injEq, reduceCtorEq, false_and] at e2
      rcases noSecComp_cut dbg hx with ⟨s2, l1, l2, l3⟩ | l1
      · left
        rw [l1]
        simp only [readOpsFrom, Prod.mk.injEq] at e2
        refine ⟨s2, ?_, by rw [← e2.2, l2], l3⟩
        show ((readOpsNoComp dbg sh0 crsr.data).1, s2) = _
        rw [e2.1]
      · right
        rcases hy : On.applyNoSecComp dbg s1 with ⟨y, z⟩
        rw [hy] at l1
        simp only at l1
        rw [l1]
    · rw [if_neg c1, if_neg h2, if_neg h3] at e2 ⊢
      exact exactly_cut (exactly_ops dbg sh0) (cuttable_of_stable (stable_readOpsNoComp dbg sh0)) e2
  · right
    rw [IOm.bind_run]
    rcases hy : On.readSectionHeader dbg s with ⟨y, z⟩
    rw [hy] at k1
    simp only at k1
    rw [k1]
end
end Smdiff
