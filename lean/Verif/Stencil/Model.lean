import Verif.Py

/-!
# `core/ratarmountcore/StenciledFile.py`: `RawStenciledFile`

The underlying Python file objects live in a store, because several views share
them: a view only holds their identities. A file object is an in-memory file
(content, position, closed flag); `α` is the type of a byte, the code never looks
at byte values.

Simplifications: all file objects are readable and seekable (lines 68-71 and
101-104 are not modelled), underlying reads are never short except at the end of
the file, `readinto` (110-116) is `read` of the buffer's length. The buffered
wrappers `StenciledFile`/`JoinedFile` (318-337) are `io.BufferedReader` from
the Python library around this class and are not modelled.
-/

namespace Verif.Stencil

open Verif.Py

/-- A Python file object (`io.BytesIO`-like) (Python library, used at StenciledFile.py:118-139). -/
structure FileObj (α : Type) where
  content : List α
  pos : Nat
  closed : Bool

/-- All file objects, by identity (StenciledFile.py:44-79). -/
abbrev Store (α : Type) := Nat → FileObj α

/-- `fileObject.seek(p, io.SEEK_SET)` for `p ≥ 0` (StenciledFile.py:118-139). -/
def Store.seek {α} (st : Store α) (f p : Nat) : Store α :=
  fun g => if g = f then { st f with pos := p } else st g

/-- `fileObject.read(n)` for `n ≥ 0`: at most `n` bytes from the position, which advances (StenciledFile.py:118-139). -/
def Store.read {α} (st : Store α) (f n : Nat) : List α × Store α :=
  let data := ((st f).content.drop (st f).pos).take n
  (data, st.seek f ((st f).pos + data.length))

/-- `RawStenciledFile` (StenciledFile.py:10-176). `stencils` is the zip of `fileObjects`,
`offsets`, `sizes` (lines 48-50). -/
structure Raw where
  offset : Int
  stencils : List (Nat × Nat × Nat)
  cumsizes : List Int
  deriving DecidableEq, Repr

/-- StenciledFile.py:73-76: `cumsizes = [0]; for size in sizes: cumsizes.append(cumsizes[-1] + size)`. -/
def cumulate (start : Int) : List Nat → List Int
  | [] => [start]
  | s :: ss => start :: cumulate (start + s) ss

/-- `RawStenciledFile.__init__` (StenciledFile.py:44-79): assertions on offsets and sizes, zero-sized
ranges are filtered out, cumulative sizes, `seek(0)`. -/
def Raw.init (fileStencils : List (Nat × Int × Int)) : Except PyErr Raw :=
  if fileStencils.any (fun s => s.2.1 < 0) then .error .assertionError       -- 56-57
  else if fileStencils.any (fun s => s.2.2 < 0) then .error .assertionError  -- 58-59
  else
    let sel := (fileStencils.filter (fun s => 0 < s.2.2)).map
      (fun s => (s.1, s.2.1.toNat, s.2.2.toNat))                             -- 63-66
    .ok { offset := 0, stencils := sel, cumsizes := cumulate 0 (sel.map (·.2.2)) }

/-- `_find_stencil` (StenciledFile.py:81-93). -/
def Raw.findStencil (r : Raw) (offset : Int) : Except PyErr Nat :=
  if offset < 0 then .error .assertionError                                  -- 90
  else
    let i : Int := (bisectLeft r.cumsizes (offset + 1) : Int) - 1            -- 91
    if i < 0 then .error .assertionError else .ok i.toNat                    -- 92-93

/-- First half of `_read1_unlocked` (StenciledFile.py:119-136): which file to seek to which position and how
many bytes to read there; `none` at the end of the view. -/
def Raw.locate {α} (st : Store α) (r : Raw) (size : Nat) : Except PyErr (Option (Nat × Nat × Nat)) :=
  match r.findStencil r.offset with                                          -- 121
  | .error e => .error e
  | .ok i =>
    match r.stencils[i]? with
    | none => .ok none                                                       -- 122-123
    | some (f, off, sz) =>
      if (st f).closed then .error .valueError                               -- 127-128
      else
        match r.cumsizes[i]? with
        | none => .error .indexError
        | some c =>
          let inside := r.offset - c                                         -- 130
          if inside < 0 then .error .assertionError                          -- 131
          else if inside ≥ sz then .error .assertionError                    -- 132
          else .ok (some (f, off + inside.toNat, min size (sz - inside.toNat)))  -- 133, 136

/-- `_read1_unlocked` (StenciledFile.py:118-139). -/
def Raw.read1 {α} (st : Store α) (r : Raw) (size : Nat) :
    Store α × Raw × Except PyErr (List α) :=
  match r.locate st size with
  | .error e => (st, r, .error e)
  | .ok none => (st, r, .ok [])                                              -- 123
  | .ok (some (f, pos, readable)) =>
    let st := st.seek f pos                                                  -- 133
    let (tmp, st) := st.read f readable                                      -- 137
    (st, { r with offset := r.offset + tmp.length }, .ok tmp)                -- 138-139

/-- The loop of `read` (StenciledFile.py:150-154); `n` is `size - len(result)`. -/
def Raw.readLoop {α} (st : Store α) (r : Raw) (n : Nat) (result : List α) :
    Store α × Raw × Except PyErr (List α) :=
  if n = 0 then (st, r, .ok result)
  else
    match r.read1 st n with
    | (st, r, .error e) => (st, r, .error e)
    | (st, r, .ok []) => (st, r, .ok result)
    | (st, r, .ok (t :: ts)) => Raw.readLoop st r (n - (ts.length + 1)) (result ++ t :: ts)
termination_by n
decreasing_by omega

/-- `read(size)` (StenciledFile.py:142-156). `cumsizes[-1]` is the last element. -/
def Raw.read {α} (st : Store α) (r : Raw) (size : Int) :
    Store α × Raw × Except PyErr (List α) :=
  if size = -1 then
    r.readLoop st ((r.cumsizes.getLast?.getD 0) - r.offset).toNat []         -- 143-144
  else if size = 0 then (st, r, .ok [])                                      -- 145-146
  else r.readLoop st size.toNat []

/-- The position `seek` computes (StenciledFile.py:160-165). -/
def Raw.target (r : Raw) (offset : Int) : Whence → Int
  | .cur => r.offset + offset                                                -- 160-161
  | .end_ => (r.cumsizes.getLast?.getD 0) + offset                           -- 162-163
  | .set => offset                                                           -- 164-165

/-- `seek(offset, whence)` (StenciledFile.py:159-172). The new offset is stored before the check. -/
def Raw.seek (r : Raw) (offset : Int) (whence : Whence) : Raw × Except PyErr Int :=
  if r.target offset whence < 0 then
    ({ r with offset := r.target offset whence }, .error .valueError)        -- 167-168
  else ({ r with offset := r.target offset whence }, .ok (r.target offset whence))  -- 169-172

/-- `tell()` (StenciledFile.py:175-176). -/
def Raw.tell (r : Raw) : Int := r.offset

/-- Calls on the view, plus `other`: somebody else moves the position of an underlying file (StenciledFile.py:142-176). -/
inductive Op where
  | read (size : Int)
  | seek (offset : Int) (whence : Whence)
  | tell
  | other (file pos : Nat)
  deriving DecidableEq, Repr

/-- What a call returns (StenciledFile.py:142-176). -/
inductive Out (α : Type) where
  | bytes (data : List α)
  | num (n : Int)
  | err (e : PyErr)
  | none
  deriving DecidableEq, Repr

/-- One call (StenciledFile.py:142-176). -/
def step {α} (s : Store α × Raw) : Op → (Store α × Raw) × Out α
  | .read n =>
    match s.2.read s.1 n with
    | (st, r, .ok b) => ((st, r), .bytes b)
    | (st, r, .error e) => ((st, r), .err e)
  | .seek o w =>
    match s.2.seek o w with
    | (r, .ok n) => ((s.1, r), .num n)
    | (r, .error e) => ((s.1, r), .err e)
  | .tell => (s, .num s.2.tell)
  | .other f p => ((s.1.seek f p, s.2), .none)

/-- Outputs of a history of calls (StenciledFile.py:142-176). -/
def run {α} (s : Store α × Raw) : List Op → List (Out α)
  | [] => []
  | op :: ops => (step s op).2 :: run (step s op).1 ops

end Verif.Stencil
