import Verif.Model.Common
import Verif.Model.Matchers

/-!
Code of /repo that nothing calls outside of its own unit tests.
-/

namespace Smdiff

/-- `Size::size_overhead`, smdiff-common/src/lib.rs:208-214 (public; no caller in /repo). -/
def Size.overhead : Size → Nat
  | .done _ => 0
  | .u8And62 => 1
  | .u16 => 2

/-- `calculate_default_win_size`, smdiff-encoder/src/src_matcher.rs:237-244 (`#[allow(dead_code)]`; only its unit test calls
it).  The one addition is of at most `2 ^ 20` to at most `2 ^ 20`. -/
def defaultWinSize (dbg : Bool) (srcLen trgtLen : Nat) (maxWinSize : Option Nat) : Outcome Nat := do
  let p ← nextPow2U dbg (max srcLen trgtLen - min srcLen trgtLen)
  let winSize := if p ≤ MIN_SRC_WIN_SIZE then p + MIN_SRC_WIN_SIZE else p
  let q ← nextPow2U dbg srcLen
  let m ← match maxWinSize with
    | some a => nextPow2U dbg a
    | none => .ok DEFAULT_SRC_WIN_SIZE
  return min winSize (min q m)

end Smdiff
