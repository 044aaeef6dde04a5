/-!
# Python facts used by all models

Only what the modelled functions need: exceptions as values, `whence`, the two
`bisect` functions, slices with Python's negative-index rule, and dictionaries
as association lists in insertion order.
-/

namespace Verif.Py

/-- Python exceptions the modelled code raises itself. -/
inductive PyErr where
  | valueError
  | assertionError
  | keyError
  | indexError
  | typeError
  | runtimeError
  | notImplemented
  | unsupported
  | fileNotFound
  | unboundLocal
  | structError
  | zeroDivision
  /-- `PyFATException` -/
  | fat
  /-- `CompressionError` -/
  | compression
  /-- `RatarmountError` and its subclasses. -/
  | ratarmount
  /-- `InvalidIndexError` -/
  | invalidIndex
  /-- `OSError`/`FuseOSError` with an errno number. -/
  | os (errno : Nat)
  deriving DecidableEq, Repr

deriving instance DecidableEq for Except

/-- Second argument of `seek` (`io.SEEK_SET`, `io.SEEK_CUR`, `io.SEEK_END`). -/
inductive Whence where
  | set | cur | end_
  deriving DecidableEq, Repr

/-- `bisect.bisect_left(a, x)` of CPython, `Lib/bisect.py`: binary search with
`lo`, `hi`; `mid = (lo + hi) // 2`; `if a[mid] < x: lo = mid + 1 else: hi = mid`. -/
def bisectLeftGo (a : List Int) (x : Int) (lo hi : Nat) : Nat :=
  if _h : lo < hi then
    let mid := (lo + hi) / 2
    match a[mid]? with
    | some v => if v < x then bisectLeftGo a x (mid + 1) hi else bisectLeftGo a x lo mid
    | none => lo  -- not reached: `mid < hi ≤ len a`
  else lo
termination_by hi - lo
decreasing_by all_goals omega

def bisectLeft (a : List Int) (x : Int) : Nat := bisectLeftGo a x 0 a.length

/-- `bisect.bisect_right(a, x)` of CPython: `if x < a[mid]: hi = mid else: lo = mid + 1`. -/
def bisectRightGo (a : List Int) (x : Int) (lo hi : Nat) : Nat :=
  if _h : lo < hi then
    let mid := (lo + hi) / 2
    match a[mid]? with
    | some v => if x < v then bisectRightGo a x lo mid else bisectRightGo a x (mid + 1) hi
    | none => lo  -- not reached
  else lo
termination_by hi - lo
decreasing_by all_goals omega

def bisectRight (a : List Int) (x : Int) : Nat := bisectRightGo a x 0 a.length

/-- Normalises a slice bound: negative bounds count from the end, then clamp to `[0, len]`. -/
def sliceBound (len : Nat) (i : Int) : Nat :=
  if i < 0 then (i + len).toNat else min i.toNat len

/-- Python `l[i:j]`. -/
def slice {α : Type _} (l : List α) (i j : Int) : List α :=
  (l.take (sliceBound l.length j)).drop (sliceBound l.length i)

/-- Python `l[:j]`. -/
def sliceTo {α : Type _} (l : List α) (j : Int) : List α := l.take (sliceBound l.length j)

/-- Python `l[i:]`. -/
def sliceFrom {α : Type _} (l : List α) (i : Int) : List α := l.drop (sliceBound l.length i)

end Verif.Py
