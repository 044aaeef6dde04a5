import Verif.Py

/-!
# Specification shared by all read-only file objects

An in-memory file: a byte string and a position. Independent of every model.
-/

namespace Verif.FileSpec

open Verif.Py

/-- Calls of a reader. -/
inductive FileOp where
  | read (size : Int)
  | seek (offset : Int) (whence : Whence)
  | tell
  deriving DecidableEq, Repr

/-- What a call returns. -/
inductive FileOut (α : Type) where
  | bytes (data : List α)
  | num (n : Int)
  | err (e : PyErr)
  deriving DecidableEq, Repr

/-- Specification: an in-memory file; any negative read size means "all". -/
structure BytesIO (α : Type) where
  content : List α
  pos : Nat

/-- Where a seek leads to; may be negative. -/
def BytesIO.target {α} (m : BytesIO α) (o : Int) : Whence → Int
  | .set => o
  | .cur => m.pos + o
  | .end_ => m.content.length + o

/-- `read(n)` returns what is left, at most `n` bytes of it unless `n < 0`; `seek` to a negative position is
rejected and changes nothing. -/
def BytesIO.step {α} (m : BytesIO α) : FileOp → BytesIO α × FileOut α
  | .read n =>
    let left := m.content.drop m.pos
    let data := if n < 0 then left else left.take n.toNat
    ({ m with pos := m.pos + data.length }, .bytes data)
  | .seek o w => if m.target o w < 0 then (m, .err .valueError)
    else ({ m with pos := (m.target o w).toNat }, .num (m.target o w))
  | .tell => (m, .num m.pos)

def BytesIO.run {α} (m : BytesIO α) : List FileOp → List (FileOut α)
  | [] => []
  | op :: ops => (m.step op).2 :: (m.step op).1.run ops

/-- No seek of the history is rejected. -/
def BytesIO.accepts {α} (m : BytesIO α) : List FileOp → Bool
  | [] => true
  | op :: ops =>
    (match op with | .seek o w => decide (0 ≤ m.target o w) | _ => true) && (m.step op).1.accepts ops

end Verif.FileSpec
