import Verif.Model.Streams
/-!
# Specification of readers

What a reader holds, independent of how it delivers it.
-/
namespace Smdiff.Spec

/-- The contract of `std::io::Read` for a reader that is in the state `s`: `content s` are the bytes it will still
deliver, in pieces as it likes and with finitely many interruptions, and `stop s` is what it reports when they are
used up (`eof` for `Ok(0)`). -/
class LawfulRead (σ : Type) [Read σ] where
  content : σ → Bytes
  stop : σ → Err
  size_ge : ∀ s : σ, (content s).length ≤ Read.size s
  got_some : ∀ (n : Nat) (s s' : σ) (b : UInt8) (bs : Bytes), 0 < n → Read.read n s = (.got (b :: bs), s') →
    content s = b :: bs ++ content s' ∧ stop s' = stop s ∧ (b :: bs).length ≤ n ∧
      Read.size s' + (b :: bs).length ≤ Read.size s
  got_none : ∀ (n : Nat) (s s' : σ), 0 < n → Read.read n s = (.got [], s') → content s = [] ∧ stop s = .eof
  again : ∀ (n : Nat) (s s' : σ), 0 < n → Read.read n s = (.interrupted, s') →
    content s' = content s ∧ stop s' = stop s ∧ Read.size s' < Read.size s
  failed : ∀ (n : Nat) (s s' : σ) (e : Err), 0 < n → Read.read n s = (.failed e, s') → content s = [] ∧ stop s = e

export LawfulRead (content stop)

/-- The bytes in front of the first end of file or error. -/
def eventBytes : List Event → Bytes
  | [] => []
  | .chunk [] :: _ => []
  | .chunk (b :: bs) :: es => b :: bs ++ eventBytes es
  | .interrupted :: es => eventBytes es
  | .fail _ :: _ => []

/-- What comes behind them. -/
def eventEnd : List Event → Err
  | [] => .eof
  | .chunk [] :: _ => .eof
  | .chunk (_ :: _) :: es => eventEnd es
  | .interrupted :: es => eventEnd es
  | .fail e :: _ => e

/-- The error `e` in place of the end of the bytes. -/
def orEnd {α : Type} (e : Err) : Outcome α → Outcome α
  | .err .eof => .err e
  | r => r

/-- What a reader makes of the outcome `r'` that the bytes themselves would have: the same outcome, or the reader's
own error `e` in place of some error. -/
def Reported {α : Type} (e : Err) (r r' : Outcome α) : Prop :=
  r = r' ∨ (e ≠ .eof ∧ r = .err e ∧ ∃ e', r' = .err e')

/-- Calling `next` until it gives `None` delivers the items `xs`, all of them good, and leads to `it'`. -/
inductive Drains {ι α : Type} (next : ι → Option (Outcome α) × ι) : ι → List α → ι → Prop
  | none (it it' : ι) : next it = (.none, it') → Drains next it [] it'
  | some (it it1 it' : ι) (a : α) (xs : List α) : next it = (.some (.ok a), it1) → Drains next it1 xs it' →
      Drains next it (a :: xs) it'

/-- The decompression libraries read like `read_exact` does: what they deliver depends only on the bytes of their
source, and where their source fails, the failure takes the place of the error that an end would have given. -/
def Follow {σ : Type} [Read σ] [LawfulRead σ] (on : On.CodecOn σ) (cdc : Codec) : Prop :=
  ∀ s : σ, Opens s (on.zstdDecode s) (cdc.zstdDecode (content s)) ∧
    Opens s (on.brotliDecode s) (cdc.brotliDecode (content s))
where
  Opens (s : σ) (r : Outcome (On.DecompressorOn σ)) (r' : Outcome Decompressor) : Prop :=
    (∃ d d', r = .ok d ∧ r' = .ok d' ∧ d.data = d'.data ∧ Reported (stop s) d.stop d'.stop ∧
      ∀ n, content (d.left n) = d'.left n ∧ stop (d.left n) = stop s ∧ Reported (stop s) (d.close n) (d'.close n)) ∨
    (r' = .panic ∧ r = .panic) ∨ (r' = .diverge ∧ r = .diverge) ∨
    (∃ e e', r = .err e ∧ r' = .err e' ∧ (e = e' ∨ (stop s ≠ .eof ∧ e = stop s)))

/-- The answer of the call of `next` after `k` others. -/
def answer {ι α : Type} (next : ι → Option (Outcome α) × ι) : (k : Nat) → ι → Option (Outcome α)
  | 0, it => (next it).1
  | k + 1, it => answer next k (next it).2

/-- A reader that does not fail, and that has nothing more to give once it has reported the end of file: files and
memory are such readers, terminals need not be. -/
def Lasting {σ : Type} [Read σ] [LawfulRead σ] (s : σ) : Prop :=
  ∃ Q : σ → Prop, Q s ∧ ∀ s, Q s → stop s = .eof ∧ ∀ n, 0 < n → Q (Read.read n s).2 ∧
    (∀ e, (Read.read n s).1 ≠ .failed e) ∧ ((Read.read n s).1 = .got [] → content (Read.read n s).2 = [])

end Smdiff.Spec
