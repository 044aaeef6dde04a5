import Verif.Index.Rows
import Verif.Py

/-!
# C140: 7-Zip archives (core/ratarmountcore/mountsource/formats/py7zr.py:67-73, 85-141, 181-183)

The archive is the list of files that `py7zr` gives, with their contents. How the contents arrive in pieces is the subject of
Formats/SevenZip.lean, passwords are the subject of Formats/Passwords.lean.
-/

namespace Verif.SevenZipSource

open Verif.Py Verif.Index

/-- A member, `py7zr.FileInfo` (py7zr.py:115-118, 127-131). The time is missing if the archive stores none. -/
structure Member where
  filename : Str
  isDirectory : Bool
  size : Nat
  time : Option Int
  data : List UInt8
  deriving DecidableEq

/-- `transform` (py7zr.py:118) and the columns that are only copied: size, time and link target (py7zr.py:127-131). -/
structure Opts where
  transform : Str → Str
  pack : Nat → Int → Str → Nat
  linkOf : Nat → Str

/-- `mode` (py7zr.py:116). -/
def mode (m : Member) : Nat := 0o777 ||| (if m.isDirectory then 0x4000 else 0x8000)

/-- `_convert_to_row` (py7zr.py:115-141). Without a time, `None.timestamp()` raises AttributeError. -/
def row (o : Opts) (m : Member) : Except PyErr Row :=
  match m.time with
  | none => .error .typeError
  | some t => .ok (⟨(splitPath (normpath (o.transform m.filename))).1, (splitPath (normpath (o.transform m.filename))).2, 0⟩,
      ⟨0, mode m, false, o.pack m.size t m.filename⟩)

/-- The rows of all members (py7zr.py:111-113). -/
def rows (o : Opts) : List Member → Except PyErr (List Row)
  | [] => .ok []
  | m :: ms => match row o m with
    | .error x => .error x
    | .ok r => match rows o ms with
      | .error x => .error x
      | .ok rs => .ok (r :: rs)

/-- `__init__` (py7zr.py:85-113). The index is always in memory. -/
def mount (o : Opts) (z : List Member) : Except PyErr Table :=
  match rows o z with
  | .error x => .error x
  | .ok rs => .ok (build [rs])

/-- `open_in_memory`: every file with the name is extracted, and the last one stays in `products` (py7zr.py:60-73). -/
def openInMemory (z : List Member) (target : Str) : Except PyErr (List UInt8) :=
  match (z.filter (fun m => !m.isDirectory && decide (m.filename = target))).getLast? with
  | none => .error .keyError
  | some m => .ok m.data

/-- `open` (py7zr.py:181-183). -/
def openFile (o : Opts) (z : List Member) (fi : FileInfo) : Except PyErr (List UInt8) := openInMemory z (o.linkOf fi.info.rest)

/-! ## Specification -/

/-- The link target is a column of its own, for the names in the archive. -/
def Lawful (o : Opts) (z : List Member) : Prop := ∀ m ∈ z, ∀ s t, o.linkOf (o.pack s t m.filename) = m.filename

/-- The path at which a member should be. -/
def At (o : Opts) (m : Member) (ns : List Str) (n : Str) : Prop := normpath (o.transform m.filename) = canonical (ns ++ [n])

/-- The member is shown: type, permissions, size, time and contents. -/
def Shows (o : Opts) (z : List Member) (m : Member) (fi : FileInfo) : Prop :=
  fi.info.mode = (if m.isDirectory then 0o040777 else 0o100777) ∧
  (∃ t, m.time = some t ∧ fi.info.rest = o.pack m.size t m.filename) ∧ (m.isDirectory = false → openFile o z fi = .ok m.data)

/-- C140 as claimed: a 7-Zip archive can be mounted, and every member is found in some version of its path. -/
def C140_statement : Prop :=
  ∀ (o : Opts) (z : List Member), Lawful o z → ∃ t, mount o z = .ok t ∧
    ∀ m ∈ z, ∀ ns n, (∀ x ∈ ns ++ [n], IsName x) → At o m ns n → ∃ version fi, lookup t (canonical (ns ++ [n])) version = some fi ∧ Shows o z m fi

/-! ## Theorems -/

theorem mode_eq (m : Member) : mode m = (if m.isDirectory then 0o040777 else 0o100777) := by
  unfold mode
  split <;> rfl

theorem rows_append {o : Opts} : ∀ {a b : List Member} {rs : List Row}, rows o (a ++ b) = .ok rs →
    ∃ ra rb, rows o a = .ok ra ∧ rows o b = .ok rb ∧ rs = ra ++ rb := by
  intro a
  induction a with
  | nil => intro b rs h; exact ⟨[], rs, rfl, h, rfl⟩
  | cons m a ih =>
    intro b rs h
    rw [List.cons_append, rows] at h
    split at h
    · cases h
    · next r hr =>
      split at h
      · cases h
      · next rs' hrs =>
        cases h
        obtain ⟨ra, rb, h1, h2, rfl⟩ := ih hrs
        exact ⟨r :: ra, rb, by rw [rows, hr, h1], h2, rfl⟩

theorem rows_mem {o : Opts} : ∀ {z : List Member} {rs : List Row}, rows o z = .ok rs →
    ∀ r ∈ rs, ∃ before m after, z = before ++ m :: after ∧ row o m = .ok r := by
  intro z
  induction z with
  | nil => intro rs h r hr; cases h; simp at hr
  | cons m z ih =>
    intro rs h r hr
    rw [rows] at h
    split at h
    · cases h
    · next r' hr' =>
      split at h
      · cases h
      · next rs' hrs =>
        cases h
        rcases List.mem_cons.mp hr with rfl | hr
        · exact ⟨[], m, z, rfl, hr'⟩
        · obtain ⟨b, m', a, h1, h2⟩ := ih hrs r hr
          exact ⟨m :: b, m', a, by rw [h1]; rfl, h2⟩

theorem rows_total {o : Opts} : ∀ {z : List Member}, (∀ m ∈ z, m.time.isSome = true) → ∃ rs, rows o z = .ok rs := by
  intro z
  induction z with
  | nil => intro _; exact ⟨[], rfl⟩
  | cons m z ih =>
    intro h
    obtain ⟨rs, hrs⟩ := ih (fun x hx => h x (by simp [hx]))
    obtain ⟨t, ht⟩ := Option.isSome_iff_exists.mp (h m (by simp))
    refine ⟨(⟨(splitPath (normpath (o.transform m.filename))).1, (splitPath (normpath (o.transform m.filename))).2, 0⟩,
        ⟨0, mode m, false, o.pack m.size t m.filename⟩) :: rs, ?_⟩
    rw [rows]
    unfold row
    rw [ht]
    simp only
    rw [hrs]

theorem row_ok {o : Opts} {m : Member} {r : Row} (h : row o m = .ok r) :
    r.1.path = (splitPath (normpath (o.transform m.filename))).1 ∧ r.1.name = (splitPath (normpath (o.transform m.filename))).2 ∧ r.1.oh = 0 ∧
    r.2.mode = mode m ∧ ∃ t, m.time = some t ∧ r.2.rest = o.pack m.size t m.filename := by
  unfold row at h
  split at h
  · cases h
  · next t ht =>
    cases h
    exact ⟨rfl, rfl, rfl, rfl, t, ht, rfl⟩

theorem mount_ok {o : Opts} {z : List Member} {t : Table} (h : mount o z = .ok t) : ∃ rs, rows o z = .ok rs ∧ t = build [rs] := by
  unfold mount at h
  split at h
  · cases h
  · next rs hrs => cases h; exact ⟨rs, hrs, rfl⟩

/-- The last member with a path is shown by its row. -/
theorem shows_last {o : Opts} {before after : List Member} {m : Member} (ho : Lawful o (before ++ m :: after)) {r : Row} (hr : row o m = .ok r)
    {ns : List Str} {n : Str} (hm : At o m ns n) (ha : ∀ x ∈ after, ¬ At o x ns n) : Shows o (before ++ m :: after) m (toFileInfo r) := by
  obtain ⟨-, -, -, h1, t, h2, h3⟩ := row_ok hr
  refine ⟨by rw [← mode_eq]; exact h1, ⟨t, h2, h3⟩, ?_⟩
  intro hd
  have hl : o.linkOf (toFileInfo r).info.rest = m.filename := by
    rw [show (toFileInfo r).info.rest = r.2.rest from rfl, h3, ho m (by simp)]
  unfold openFile openInMemory
  rw [hl, getLast?_filter_of_last (by simp [hd])]
  intro q hq
  have : q.filename ≠ m.filename := by
    intro he
    refine ha q hq ?_
    unfold At at hm ⊢
    rw [he, hm]
  simp [this]

/-- C140 for the last member with each path, if all members have times. What is missing: a member without a time makes mounting fail, and
earlier members with the same path cannot be reached, because all header offsets are 0. -/
theorem C140_partial (o : Opts) (z : List Member) (ho : Lawful o z) (ht : ∀ m ∈ z, m.time.isSome = true) : ∃ t, mount o z = .ok t ∧
    ∀ before m after, z = before ++ m :: after → ∀ ns n, (∀ x ∈ ns ++ [n], IsName x) → At o m ns n → (∀ x ∈ after, ¬ At o x ns n) →
      ∃ version fi, lookup t (canonical (ns ++ [n])) version = some fi ∧ Shows o z m fi := by
  obtain ⟨rs, hrs⟩ := rows_total (o := o) ht
  refine ⟨build [rs], by rw [mount, hrs], ?_⟩
  rintro before m after rfl ns n hn hm ha
  obtain ⟨ra, rb, h1, h2, rfl⟩ := rows_append hrs
  rw [rows] at h2
  split at h2
  · cases h2
  next r hr =>
  split at h2
  · cases h2
  next rs' hrs' =>
  cases h2
  obtain ⟨p1, p2, p3, -⟩ := row_ok hr
  unfold At at hm
  rw [hm, splitPath_canonical hn] at p1 p2
  have hlast : LastRow (ra ++ r :: rs') r := by
    refine ⟨ra, rs', rfl, ?_⟩
    intro q hq he
    obtain ⟨b, x, a, hx, hrow⟩ := rows_mem hrs' q hq
    obtain ⟨q1, q2, -⟩ := row_ok hrow
    refine ha x (by rw [hx]; simp) (splitPath_inj (Prod.ext ?_ ?_))
    · rw [← q1, he]; exact p1
    · rw [← q2, he]; exact p2
  obtain ⟨v, hv⟩ := lastRow_lookup hn hlast p1 p2
  exact ⟨v, toFileInfo r, hv, shows_last ho hr hm ha⟩

/-- C140: every file that is found under a path, in any version, shows the last member with this path. -/
theorem C140_found (o : Opts) (z : List Member) (ho : Lawful o z) (t : Table) (hz : mount o z = .ok t) (ns : List Str) (n : Str)
    (hn : ∀ x ∈ ns ++ [n], IsName x) (version : Int) (fi : FileInfo) (hl : lookup t (canonical (ns ++ [n])) version = some fi)
    (hf : isDir fi.info.mode = false) :
    ∃ before m after, z = before ++ m :: after ∧ At o m ns n ∧ (∀ x ∈ after, ¬ At o x ns n) ∧ m.isDirectory = false ∧ Shows o z m fi := by
  obtain ⟨rs, hrs, rfl⟩ := mount_ok hz
  obtain ⟨r, ⟨ra, rb, rfl, hlast⟩, rfl, p1, p2⟩ := lookup_lastRow hn hl hf
  have key : ∀ {z : List Member} {ra : List Row}, rows o z = .ok (ra ++ r :: rb) → ∃ before m after, z = before ++ m :: after ∧
      row o m = .ok r ∧ rows o after = .ok rb := by
    intro z
    induction z with
    | nil => intro ra h; cases ra <;> cases h
    | cons m z ih =>
      intro ra h
      rw [rows] at h
      split at h
      · cases h
      next r' hr' =>
      split at h
      · cases h
      next rs' hrs' =>
      cases ra with
      | nil =>
        cases h
        exact ⟨[], m, z, rfl, hr', hrs'⟩
      | cons q ra =>
        cases h
        obtain ⟨b, m', a, h1, h2, h3⟩ := ih hrs'
        exact ⟨m :: b, m', a, by rw [h1]; rfl, h2, h3⟩
  obtain ⟨before, m, after, rfl, hrow, hafter⟩ := key hrs
  obtain ⟨q1, q2, q3, q4, -⟩ := row_ok hrow
  have hm : At o m ns n := splitPath_inj (Prod.ext (by rw [← q1]; exact p1) (by rw [← q2]; exact p2))
  have ha : ∀ x ∈ after, ¬ At o x ns n := by
    intro x hx hat
    obtain ⟨b, c, rfl⟩ := List.append_of_mem hx
    obtain ⟨rb1, rb2, -, h2, rfl⟩ := rows_append hafter
    rw [rows] at h2
    split at h2
    · cases h2
    next rx hrx =>
    split at h2
    · cases h2
    cases h2
    obtain ⟨x1, x2, x3, -⟩ := row_ok hrx
    unfold At at hat
    rw [hat, splitPath_canonical hn] at x1 x2
    refine hlast rx (by simp) ?_
    have : ∀ a b : Key, a.path = b.path → a.name = b.name → a.oh = b.oh → a = b := by
      rintro ⟨⟩ ⟨⟩ rfl rfl rfl; rfl
    exact this _ _ (by rw [x1, p1]) (by rw [x2, p2]) (by rw [x3, q3])
  refine ⟨before, m, after, rfl, hm, ha, ?_, shows_last ho hrow hm ha⟩
  cases hd : m.isDirectory with
  | false => rfl
  | true =>
    rw [show (toFileInfo r).info.mode = r.2.mode from rfl, q4, mode_eq, hd] at hf
    exact absurd hf (by decide)

/-- Columns for archives with the name `a` only. -/
def onlyA : Opts := ⟨id, fun _ _ _ => 0, fun _ => "a".toList⟩

/-- C140 is violated: without a time the archive cannot be mounted. -/
theorem C140_violated : ¬ C140_statement := by
  intro h
  obtain ⟨t, ht, -⟩ := h onlyA [⟨"a".toList, false, 1, none, [1]⟩] (by intro m hm s t; rw [List.mem_singleton.mp hm]; rfl)
  cases ht

/-- Two members with the same name. -/
def twice : List Member := [⟨"a".toList, false, 1, some 0, [1]⟩, ⟨"a".toList, false, 1, some 0, [2]⟩]

theorem twice_lawful : Lawful onlyA twice := by
  intro m hm s t
  simp only [twice, List.mem_cons, List.not_mem_nil, or_false] at hm
  rcases hm with rfl | rfl <;> rfl

/-- C140 is violated, with times: of two members with the same path only the last one can be reached. -/
theorem C140_twice_violated : ¬ ∃ t, mount onlyA twice = .ok t ∧ ∃ version fi, lookup t (canonical ([] ++ ["a".toList])) version = some fi ∧
    openFile onlyA twice fi = .ok [1] := by
  rintro ⟨t, -, v, fi, -, h⟩
  have : openFile onlyA twice fi = .ok [2] := by
    show openInMemory twice "a".toList = .ok [2]
    decide +kernel
  rw [this] at h
  cases h

/-- The hypotheses can be met. -/
example : ∃ t, mount onlyA twice = .ok t ∧ ∃ version fi, lookup t (canonical ([] ++ ["a".toList])) version = some fi ∧
    openFile onlyA twice fi = .ok [2] := by
  obtain ⟨t, h1, h2⟩ := C140_partial onlyA twice twice_lawful (by decide)
  obtain ⟨v, fi, h3, h4⟩ := h2 [⟨"a".toList, false, 1, some 0, [1]⟩] ⟨"a".toList, false, 1, some 0, [2]⟩ [] rfl [] "a".toList
    (by simp [IsName]) (by unfold At; decide) (by simp)
  exact ⟨t, h1, v, fi, h3, h4.2.2 rfl⟩

end Verif.SevenZipSource
