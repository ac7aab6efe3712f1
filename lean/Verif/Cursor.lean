import Verif.Basic
/-!
# `std::io::Cursor<Vec<u8>>` as the sink of `apply_patch`

Only the operations the decoder uses: `seek(SeekFrom::Start(_))`, `read_exact`, `write_all`.
-/
namespace Smdiff

/-- An in-memory file: contents and position (`std::io::Cursor<Vec<u8>>`). -/
structure Cursor where
  data : Bytes
  pos : Nat
  deriving DecidableEq, Repr

namespace Cursor

/-- A fresh, empty sink. -/
def empty : Cursor := ⟨[], 0⟩

/-- `seek(SeekFrom::Start(p))`; never fails on an in-memory cursor, also past the end. -/
def seek (p : Nat) (c : Cursor) : Cursor := { c with pos := p }

/-- `seek` as an effect. -/
def seekTo (p : Nat) : IOm Cursor Unit := fun c => (.ok (), c.seek p)

@[simp] theorem seekTo_run (p : Nat) (c : Cursor) : seekTo p c = (.ok (), ⟨c.data, p⟩) := rfl

/-- `read_exact` of `n` bytes at the current position; reading 0 bytes succeeds anywhere. -/
def readExact (n : Nat) : IOm Cursor Bytes := fun c =>
  if n ≤ c.data.length - c.pos then
    (.ok ((c.data.drop c.pos).take n), { c with pos := c.pos + n })
  else (.err .eof, { c with pos := c.data.length })

/-- `write_all`: pads with zeros up to the position, overwrites, extends. -/
def writeAll (bs : Bytes) : IOm Cursor Unit := fun c =>
  (.ok (), { data := c.data.take c.pos ++ List.replicate (c.pos - c.data.length) 0 ++ bs
                      ++ c.data.drop (c.pos + bs.length),
             pos := c.pos + bs.length })

end Cursor
end Smdiff
