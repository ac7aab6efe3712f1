import Verif.SpecStreams
/-!
# Specification of readers that are read to their end
-/
namespace Smdiff.Spec

/-- How a reader ends: with `Ok(0)` (`none`) or with an error.  (`LawfulRead.stop` does not tell `Ok(0)` from an error
of the kind `UnexpectedEof` that the reader itself reports.) -/
class LawfulEnd (σ : Type) [Read σ] [LawfulRead σ] where
  fault : σ → Option Err
  got_some : ∀ (n : Nat) (s s' : σ) (b : UInt8) (bs : Bytes), 0 < n → Read.read n s = (.got (b :: bs), s') →
    fault s' = fault s
  got_none : ∀ (n : Nat) (s s' : σ), 0 < n → Read.read n s = (.got [], s') → fault s = none
  again : ∀ (n : Nat) (s s' : σ), 0 < n → Read.read n s = (.interrupted, s') → fault s' = fault s
  failed : ∀ (n : Nat) (s s' : σ) (e : Err), 0 < n → Read.read n s = (.failed e, s') → fault s = some e

export LawfulEnd (fault)

/-- The error in front of the first end of file. -/
def eventFault : List Event → Option Err
  | [] => none
  | .chunk [] :: _ => none
  | .chunk (_ :: _) :: es => eventFault es
  | .interrupted :: es => eventFault es
  | .fail e :: _ => some e

end Smdiff.Spec
