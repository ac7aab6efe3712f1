/-!
# Outcomes, streams and slices

The vocabulary of the model: what a Rust call can do (`Outcome`), code acting on a stream
(`IOm`), byte sources, writers and slice access.
-/

namespace Smdiff

/-- A sequence of bytes: `Vec<u8>`, `&[u8]`, or what a reader has not delivered yet. -/
abbrev Bytes := List UInt8

/-- The `std::io::Error`s that occur in the modelled code. -/
inductive Err
  /-- `UnexpectedEof` out of `read_exact`. -/
  | eof
  /-- `InvalidData` constructed by the crates themselves. -/
  | invalidData
  /-- an error reported by the underlying writer. -/
  | writeFail
  /-- `WriteZero` out of `write_all`. -/
  | writeZero
  /-- an error reported by a compression library. -/
  | library
  deriving DecidableEq, Repr

/-- What a Rust call can do.  `panic` covers `panic!`, failed assertions, `unwrap` on `None`,
out-of-range indexing and overflow in checked builds.  `diverge` means that a loop ran out of the
fuel the model gave it. -/
inductive Outcome (α : Type) where
  | ok (a : α)
  | err (e : Err)
  | panic
  | diverge
  deriving DecidableEq, Repr

namespace Outcome

def bind {α β : Type} (x : Outcome α) (f : α → Outcome β) : Outcome β :=
  match x with
  | ok a => f a
  | err e => err e
  | panic => panic
  | diverge => diverge

instance : Monad Outcome where
  pure := ok
  bind := bind

@[simp] theorem pure_eq {α : Type} (a : α) : (pure a : Outcome α) = ok a := rfl
@[simp] theorem ok_bind {α β : Type} (a : α) (f : α → Outcome β) : (ok a >>= f) = f a := rfl
@[simp] theorem err_bind {α β : Type} (e : Err) (f : α → Outcome β) :
    ((err e : Outcome α) >>= f) = err e := rfl
@[simp] theorem panic_bind {α β : Type} (f : α → Outcome β) :
    ((panic : Outcome α) >>= f) = panic := rfl
@[simp] theorem diverge_bind {α β : Type} (f : α → Outcome β) :
    ((diverge : Outcome α) >>= f) = diverge := rfl

theorem bind_eq_ok {α β : Type} {x : Outcome α} {f : α → Outcome β} {b : β} :
    (x >>= f) = ok b ↔ ∃ a, x = ok a ∧ f a = ok b := by
  cases x <;> simp

/-- `assert!(c)` -/
def assert (c : Bool) : Outcome Unit := if c then ok () else panic

/-- `debug_assert!(c)`: only evaluated in debug builds. -/
def debugAssert (dbg : Bool) (c : Bool) : Outcome Unit := if dbg && !c then panic else ok ()

end Outcome

/-- Code that acts on a stream (or other state) `σ`.  The state survives errors and panics, so
that partial effects stay observable. -/
def IOm (σ α : Type) : Type := σ → Outcome α × σ

namespace IOm

def bind {σ α β : Type} (x : IOm σ α) (f : α → IOm σ β) : IOm σ β := fun s =>
  match x s with
  | (.ok a, s') => f a s'
  | (.err e, s') => (.err e, s')
  | (.panic, s') => (.panic, s')
  | (.diverge, s') => (.diverge, s')

instance {σ : Type} : Monad (IOm σ) where
  pure a := fun s => (.ok a, s)
  bind := bind

/-- Return `Err(e)`. -/
def throw {σ α : Type} (e : Err) : IOm σ α := fun s => (.err e, s)

/-- Panic. -/
def panic {σ α : Type} : IOm σ α := fun s => (.panic, s)

/-- Run a computation that does not touch the stream. -/
def lift {σ α : Type} (x : Outcome α) : IOm σ α := fun s => (x, s)

@[simp] theorem pure_run {σ α : Type} (a : α) (s : σ) : (pure a : IOm σ α) s = (.ok a, s) := rfl

@[simp] theorem lift_run {σ α : Type} (x : Outcome α) (s : σ) : (lift x : IOm σ α) s = (x, s) := rfl

@[simp] theorem throw_run {σ α : Type} (e : Err) (s : σ) :
    (throw e : IOm σ α) s = (.err e, s) := rfl

@[simp] theorem panic_run {σ α : Type} (s : σ) : (panic : IOm σ α) s = (.panic, s) := rfl

theorem bind_run {σ α β : Type} (x : IOm σ α) (f : α → IOm σ β) (s : σ) :
    (x >>= f) s = match x s with
      | (.ok a, s') => f a s'
      | (.err e, s') => (.err e, s')
      | (.panic, s') => (.panic, s')
      | (.diverge, s') => (.diverge, s') := rfl

theorem bind_ok {σ α β : Type} {x : IOm σ α} {f : α → IOm σ β} {s s' : σ} {a : α}
    (h : x s = (.ok a, s')) : (x >>= f) s = f a s' := by
  simp [bind_run, h]

theorem bind_err {σ α β : Type} {x : IOm σ α} {f : α → IOm σ β} {s s' : σ} {e : Err}
    (h : x s = (.err e, s')) : (x >>= f) s = (.err e, s') := by
  simp [bind_run, h]

theorem bind_panic {σ α β : Type} {x : IOm σ α} {f : α → IOm σ β} {s s' : σ}
    (h : x s = (.panic, s')) : (x >>= f) s = (.panic, s') := by
  simp [bind_run, h]

theorem bind_diverge {σ α β : Type} {x : IOm σ α} {f : α → IOm σ β} {s s' : σ}
    (h : x s = (.diverge, s')) : (x >>= f) s = (.diverge, s') := by
  simp [bind_run, h]

/-- A bind that succeeded went through its first part. -/
theorem bind_eq_ok {σ α β : Type} {x : IOm σ α} {f : α → IOm σ β} {s t : σ} {b : β}
    (h : (x >>= f) s = (.ok b, t)) : ∃ a s', x s = (.ok a, s') ∧ f a s' = (.ok b, t) := by
  rw [bind_run] at h
  split at h
  · next a s' hx => exact ⟨a, s', hx, h⟩
  all_goals simp at h

end IOm

/-! ## Readers -/

/-- `Read::read_exact` for `n` bytes on a byte source.  std leaves the amount consumed on failure
unspecified; the model consumes everything. -/
def readExact (n : Nat) : IOm Bytes Bytes := fun s =>
  if n ≤ s.length then (.ok (s.take n), s.drop n) else (.err .eof, [])

/-! ## Writers -/

/-- `std::io::Write`, reduced to `write_all`. -/
class Writer (σ : Type) where
  writeAll : Bytes → IOm σ Unit

/-- Writing to a `Vec<u8>`: append, never fails. -/
instance : Writer Bytes := ⟨fun bs w => (.ok (), w ++ bs)⟩

@[simp] theorem writeAll_bytes (bs w : Bytes) :
    (Writer.writeAll bs : IOm Bytes Unit) w = (.ok (), w ++ bs) := rfl

/-- A writer that accepts `room` more bytes and then fails (disk full, closed pipe). -/
structure LimitedWriter where
  out : Bytes
  room : Nat

instance : Writer LimitedWriter := ⟨fun bs w =>
  if bs.length ≤ w.room then (.ok (), ⟨w.out ++ bs, w.room - bs.length⟩)
  else (.err .writeFail, ⟨w.out ++ bs.take w.room, 0⟩)⟩

/-! ## Indexing and slicing -/

/-- `bs[i]`; panics when out of range. -/
def idx {α : Type} (bs : List α) (i : Nat) : Outcome α :=
  match bs[i]? with
  | some b => .ok b
  | none => .panic

/-- `&bs[i..j]`; panics unless `i ≤ j ≤ bs.len()`. -/
def slice {α : Type} (bs : List α) (i j : Nat) : Outcome (List α) :=
  if i ≤ j ∧ j ≤ bs.length then .ok ((bs.drop i).take (j - i)) else .panic

/-- `&bs[i..]`; panics unless `i ≤ bs.len()`. -/
def sliceFrom {α : Type} (bs : List α) (i : Nat) : Outcome (List α) :=
  if i ≤ bs.length then .ok (bs.drop i) else .panic

/-- `(lo..lo+n).take_while(p).count()` -/
def countWhile (p : Nat → Bool) (lo : Nat) : Nat → Nat
  | 0 => 0
  | n + 1 => if p lo then countWhile p (lo + 1) n + 1 else 0

/-- `a[i] == b[j]` for indices known to be in range (`false` outside, never reached). -/
def byteEq (a : Bytes) (i : Nat) (b : Bytes) (j : Nat) : Bool :=
  match a[i]?, b[j]? with
  | some x, some y => x == y
  | _, _ => false

end Smdiff
