import Verif.Index.Normpath
import Verif.Dict
import Verif.Bits

/-!
# The mount source interface (core/ratarmountcore/mountsource/MountSource.py)

A mount source that does not change while it is used is the functions it answers with. `FileInfo.userdata` is a
stack; its top, the last element of the Python list, is the first one here.
-/

namespace Verif.Compose

open Verif.Py Verif.Index

/-- What layers push onto `userdata`: `None`, a reference to a mount source (given by its identity), a string, the
values of `FileType` (versioning.py:12-14), and what the innermost source stored. -/
inductive Tag where
  | none
  | source (id : Nat)
  | str (s : Str)
  | file
  | versionsFolder
  | own (n : Nat)
  deriving DecidableEq, Repr

/-- `FileInfo` (MountSource.py:14-28). `rest` stands for the columns that are only copied: size, mtime, uid, gid. -/
structure FileInfo where
  mode : Nat
  link : Str
  rest : Nat
  userdata : List Tag
  deriving DecidableEq, Repr

/-- `fileInfo.userdata.append(tag)` (for example union.py:130). -/
def FileInfo.push (f : FileInfo) (t : Tag) : FileInfo := { f with userdata := t :: f.userdata }

/-- `stat.S_ISDIR` (MountSource.py:114-116). -/
def isDir (mode : Nat) : Bool := mode &&& 0xF000 == 0x4000

/-- `create_root_file_info` (MountSource.py:142-152). -/
def rootInfo (userdata : List Tag) : FileInfo := ⟨0o40777, [], 0, userdata⟩

/-- The result of `list` or `list_mode`: names, or a dictionary (MountSource.py:48-61). -/
inductive Listing (V : Type) where
  | names (l : List Str)
  | dict (d : Dict Str V)

/-- Iterating over a listing (MountSource.py:48-61). -/
def Listing.keys {V : Type} : Listing V → List Str
  | .names l => l
  | .dict d => d.keys

/-- A mount source (MountSource.py:38-130). `id` is its identity as a Python object. -/
structure Source where
  id : Nat
  immutable : Bool
  lookup : Str → Int → Option FileInfo
  versions : Str → Nat
  list : Str → Option (Listing FileInfo)
  listMode : Str → Option (Listing Nat)

/-- `is_dir` (MountSource.py:114-116). -/
def Source.isDirAt (s : Source) (p : Str) : Bool :=
  match s.lookup p 0 with
  | some i => isDir i.mode
  | none => false

/-- The names in a folder; none if there is no such folder (MountSource.py:48). -/
def Source.namesIn (s : Source) (p : Str) : List Str :=
  match s.list p with
  | some l => l.keys
  | none => []

/-- `os.path.join(a, b)` (Python library, used at MountSource.py:91-96, union.py:69-83). -/
def joinPath (a b : Str) : Str :=
  if startsWith ['/'] b then b else if a = [] ∨ endsWith ['/'] a then a ++ b else a ++ '/' :: b

/-- `s.split(c, n)` (Python library, used at union.py:114, removeprefix.py:32). -/
def splitMax (c : Char) : Str → Nat → List Str
  | s, 0 => [s]
  | [], _ + 1 => [[]]
  | x :: xs, n + 1 =>
    if x = c then [] :: splitMax c xs n
    else match splitMax c xs (n + 1) with
      | h :: t => (x :: h) :: t
      | [] => [[x]]

/-! ## lemmas -/

theorem splitMax_ne_nil (c : Char) (s : Str) (n : Nat) : splitMax c s n ≠ [] := by
  cases n with
  | zero => cases s <;> simp [splitMax]
  | succ n =>
    cases s with
    | nil => simp [splitMax]
    | cons x xs => simp only [splitMax]; split <;> (try split) <;> simp

theorem splitMax_of_not_mem (c : Char) (s : Str) (n : Nat) (h : c ∉ s) : splitMax c s n = [s] := by
  cases n with
  | zero => cases s <;> simp [splitMax]
  | succ n =>
    induction s with
    | nil => rfl
    | cons x xs ih =>
      simp only [List.mem_cons, not_or] at h
      simp only [splitMax]
      rw [if_neg (fun e => h.1 e.symm), ih h.2]

theorem splitMax_append_cons (c : Char) (s t : Str) (n : Nat) (h : c ∉ s) :
    splitMax c (s ++ c :: t) (n + 1) = s :: splitMax c t n := by
  induction s with
  | nil => simp [splitMax]
  | cons x xs ih =>
    simp only [List.mem_cons, not_or] at h
    rw [List.cons_append]
    simp only [splitMax]
    rw [if_neg (fun e => h.1 e.symm), ih h.2]

theorem splitMax_join_dropLast (cs : List Str) (hne : cs ≠ []) (h : ∀ n ∈ cs, '/' ∉ n) : ∀ d,
    (splitMax '/' (join '/' cs) d).dropLast = cs.take (min d (cs.length - 1)) := by
  induction cs with
  | nil => exact absurd rfl hne
  | cons c cs ih =>
    intro d
    cases cs with
    | nil => rw [show join '/' [c] = c from rfl, splitMax_of_not_mem _ _ _ (h c (by simp))]; simp
    | cons b bs =>
      cases d with
      | zero => simp [splitMax]
      | succ d =>
        rw [show join '/' (c :: b :: bs) = c ++ '/' :: join '/' (b :: bs) from rfl,
          splitMax_append_cons _ _ _ _ (h c (by simp)),
          List.dropLast_cons_of_ne_nil (splitMax_ne_nil _ _ _),
          ih (by simp) (fun n hn => h n (List.mem_cons_of_mem _ hn)) d,
          show min (d + 1) ((c :: b :: bs).length - 1) = min d ((b :: bs).length - 1) + 1 from by simp]
        rfl

theorem canonical_inj (a b : List Str) (ha : ∀ n ∈ a, IsName n) (hb : ∀ n ∈ b, IsName n)
    (h : canonical a = canonical b) : a = b := by
  rw [← split_canonical a ha, ← split_canonical b hb, h]

theorem join_append_single (cs : List Str) (n : Str) (h : cs ≠ []) : join '/' (cs ++ [n]) = join '/' cs ++ '/' :: n := by
  induction cs with
  | nil => exact absurd rfl h
  | cons c cs ih =>
    cases cs with
    | nil => rfl
    | cons b bs =>
      rw [List.cons_append, List.cons_append, show join '/' (c :: b :: (bs ++ [n])) = c ++ '/' :: join '/' (b :: bs ++ [n]) from rfl,
        ih (by simp), show join '/' (c :: b :: bs) = c ++ '/' :: join '/' (b :: bs) from rfl]
      simp

theorem getLast_join (cs : List Str) (hne : cs ≠ []) (h : ∀ n ∈ cs, IsName n) : (join '/' cs).getLast? ≠ some '/' := by
  induction cs with
  | nil => exact absurd rfl hne
  | cons c cs ih =>
    cases cs with
    | nil =>
      show c.getLast? ≠ _
      intro e
      exact (h c (by simp)).2.1 (List.mem_of_getLast? e)
    | cons b bs =>
      have := ih (by simp) (fun n hn => h n (List.mem_cons_of_mem _ hn))
      rw [show join '/' (c :: b :: bs) = c ++ ('/' :: join '/' (b :: bs)) from rfl, List.getLast?_append]
      have hb : join '/' (b :: bs) ≠ [] := by
        intro e
        have hs := split_join '/' (b :: bs) (by simp) (fun n hn => (h n (List.mem_cons_of_mem _ hn)).2.1)
        rw [e] at hs
        simp only [split, List.cons.injEq] at hs
        exact (h b (by simp)).1 hs.1.symm
      rw [List.getLast?_cons]
      cases hl : (join '/' (b :: bs)).getLast? with
      | none => exact absurd (List.getLast?_eq_none_iff.mp hl) hb
      | some x => rw [hl] at this; simpa using this

theorem joinPath_canonical (cs : List Str) (n : Str) (h : ∀ x ∈ cs, IsName x) (hn : IsName n) :
    joinPath (canonical cs) n = canonical (cs ++ [n]) := by
  unfold joinPath
  have h1 : startsWith ['/'] n = false := by
    unfold startsWith
    cases n with
    | nil => rfl
    | cons x xs =>
      have : ('/' == x) = false := beq_eq_false_iff_ne.mpr (fun e => hn.2.1 (e ▸ List.mem_cons_self))
      show (('/' == x) && [].isPrefixOf xs) = false
      rw [this]; rfl
  rw [h1]
  simp only [Bool.false_eq_true, if_false]
  cases cs with
  | nil => rw [if_pos (by decide)]; rfl
  | cons c cs =>
    have h2 : endsWith ['/'] (canonical (c :: cs)) = false := by
      cases he : endsWith ['/'] (canonical (c :: cs)) with
      | false => rfl
      | true =>
        unfold endsWith at he
        rw [List.isSuffixOf_iff_suffix] at he
        obtain ⟨t, ht⟩ := he
        have hl := getLast_join (c :: cs) (by simp) h
        rw [canonical_eq] at ht
        have : ('/' :: join '/' (c :: cs)).getLast? = some '/' := by rw [← ht]; simp
        rw [List.getLast?_cons] at this
        cases hj : (join '/' (c :: cs)).getLast? with
        | none =>
          have e := List.getLast?_eq_none_iff.mp hj
          have hs := split_join '/' (c :: cs) (by simp) (fun n hn => (h n hn).2.1)
          rw [e] at hs
          simp only [split, List.cons.injEq] at hs
          exact absurd hs.1.symm (h c (by simp)).1
        | some x =>
          rw [hj] at this hl
          simp only [Option.getD_some, Option.some.injEq] at this
          exact absurd (congrArg some this) hl
    rw [if_neg (by rw [h2]; simp [canonical]), canonical_eq, canonical_eq, join_append_single _ _ (by simp)]
    rfl

end Verif.Compose
