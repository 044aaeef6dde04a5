import Verif.Index.Build
import Verif.Fat.Dates
import Verif.Bits

/-!
# C132 to C135: ZIP archives (core/ratarmountcore/mountsource/formats/zip.py)

The archive is the list of entries that `zipfile` reads from the central directory, with what `zipfile` gives for their
contents. Not modelled: an index that is loaded instead of being made, the check of `zipfile` that the name in the local
header is the same, and the decryption itself (wrong passwords that pass the check of one byte are listed with the entry).
-/

namespace Verif.Zip

open Verif.Py Verif.Index Verif.FatDates

/-- Passwords (zip.py:105). -/
abbrev Password := List UInt8

/-- File contents (zip.py:66). -/
abbrev Content := List UInt8

/-- An entry of the central directory, `zipfile.ZipInfo` (zip.py:47). `data` is missing if `zipfile` cannot decompress it,
`wrong` are other passwords that pass the check of `zipfile` when it opens the entry. -/
structure Entry where
  filename : Str
  date : Nat
  time : Nat
  attr : Nat
  offset : Nat
  size : Nat
  password : Option Password
  wrong : List Password
  data : Option Content
  deriving DecidableEq

/-- `transform` (zip.py:71), the decoding of link targets (zip.py:66), and the columns of the index that are only copied:
size, time and link target (zip.py:83-100). -/
structure Opts where
  transform : Str → Str
  decode : Content → Option Str
  pack : Nat → Int → Str → Nat

/-- `is_dir` (Python library, `zipfile.ZipInfo`, used at zip.py:64). -/
def isDirEntry (e : Entry) : Bool := endsWith ['/'] e.filename

/-! ## Times -/

/-- The date in `date_time` (Python library, `zipfile`, used at zip.py:48). -/
def entryDate (e : Entry) : Date := ⟨(e.date >>> 9) + 1980, (e.date >>> 5) &&& 0xF, e.date &&& 0x1F⟩

/-- The time in `date_time` (Python library, `zipfile`, used at zip.py:48). -/
def entryTime (e : Entry) : Time := ⟨e.time >>> 11, (e.time >>> 5) &&& 0x3F, (e.time &&& 0x1F) * 2⟩

/-- Days before a year (Python library, `datetime`, used at zip.py:48). -/
def daysBeforeYear (y : Nat) : Nat := (y - 1) * 365 + (y - 1) / 4 - (y - 1) / 100 + (y - 1) / 400

/-- Days before a month in its year (Python library, `datetime`, used at zip.py:48). -/
def daysBeforeMonth (y : Nat) : Nat → Nat
  | 0 => 0
  | m + 1 => if m = 0 then 0 else daysBeforeMonth y m + daysIn y m

/-- The number of a day; the first of January of the year 1 is number 1 (Python library, `datetime`, used at zip.py:48). -/
def ordinal (d : Date) : Nat := daysBeforeYear d.year + daysBeforeMonth d.year d.month + d.day

/-- `datetime(..., tzinfo=utc).timestamp()` (zip.py:48). -/
def timestamp (d : Date) (t : Time) : Int :=
  86400 * ((ordinal d : Int) - 719163) + 3600 * t.hour + 60 * t.minute + t.second

/-- `mtime` (zip.py:48). Dates and times that do not exist are a `ValueError`. -/
@[irreducible] def mtime (e : Entry) : Except PyErr Int :=
  if (entryDate e).valid && (entryTime e).valid then .ok (timestamp (entryDate e) (entryTime e)) else .error .valueError

/-! ## Contents -/

/-- `ZipFile.open` and reading one byte, as a test for a password (zip.py:124-125). -/
def opens (pwd : Option Password) (e : Entry) : Bool :=
  match e.password, pwd with
  | none, _ => e.data.isSome
  | some _, none => false
  | some k, some p => (p == k || e.wrong.contains p) && e.data.isSome

/-- `ZipFile.read` (zip.py:66) and reading a file that `ZipFile.open` opened (zip.py:147). -/
def read (pwd : Option Password) (e : Entry) : Except PyErr Content :=
  match e.password, pwd with
  | none, _ => match e.data with
    | none => .error .notImplemented
    | some d => .ok d
  | some _, none => .error .runtimeError
  | some k, some p =>
    if p = k then match e.data with
      | none => .error .notImplemented
      | some d => .ok d
    else .error .compression

/-! ## Rows -/

/-- The permissions of an entry (zip.py:62-64). -/
def permissions (e : Entry) : Nat :=
  if (e.attr >>> 16) &&& 0o777 = 0 then (if isDirEntry e then 0o770 else 0o660) else (e.attr >>> 16) &&& 0o777

/-- `stat.S_ISLNK(info.external_attr >> 16)` (zip.py:65). -/
def isLink (e : Entry) : Bool := (e.attr >>> 16) &&& 0xF000 == 0xA000

/-- The file type of an entry (zip.py:65-69). -/
def fileType (e : Entry) : Nat := if isLink e then 0xA000 else if isDirEntry e then 0x4000 else 0x8000

/-- `mode` (zip.py:62-69). -/
def mode (e : Entry) : Nat := permissions e ||| fileType e

/-- `linkname` (zip.py:61, 65-66). -/
def linkname (o : Opts) (pwd : Option Password) (e : Entry) : Except PyErr Str :=
  if isLink e then
    match read pwd e with
    | .error x => .error x
    | .ok c => match o.decode c with
      | none => .error .valueError
      | some s => .ok s
  else .ok []

/-- `path, name` (zip.py:71). -/
def place (o : Opts) (e : Entry) : Str × Str := splitPath (normpath (o.transform e.filename))

/-- `_convert_to_row` (zip.py:47-102). -/
def row (o : Opts) (pwd : Option Password) (e : Entry) : Except PyErr Row :=
  match mtime e with
  | .error x => .error x
  | .ok t => match linkname o pwd e with
    | .error x => .error x
    | .ok l => .ok (⟨(place o e).1, (place o e).2, e.offset⟩, ⟨0, mode e, false, o.pack e.size t l⟩)

/-- The rows of all entries (zip.py:44). -/
def rows (o : Opts) (pwd : Option Password) : List Entry → Except PyErr (List Row)
  | [] => .ok []
  | e :: es => match row o pwd e with
    | .error x => .error x
    | .ok r => match rows o pwd es with
      | .error x => .error x
      | .ok rs => .ok (r :: rs)

/-! ## Passwords -/

/-- `ZipFile.setpassword`: the empty password is none (Python library, `zipfile`, used at zip.py:110, 122). -/
def setPassword (p : Password) : Option Password := if p = [] then none else some p

/-- The loop over the passwords (zip.py:120-130); gives the password that is set afterwards. -/
def tryPasswords (pwd : Option Password) (e : Entry) : List (Option Password) → Except PyErr (Option Password)
  | [] => .error .runtimeError
  | p :: ps => if opens ((p.bind setPassword).or pwd) e then .ok ((p.bind setPassword).or pwd)
      else tryPasswords ((p.bind setPassword).or pwd) e ps

/-- The files that are candidates for trying passwords (zip.py:116). -/
def candidates (z : List Entry) : List Entry := z.filter (fun e => !isDirEntry e && decide (e.size > 0))

/-- `_find_password` (zip.py:104-130); gives the password that is set afterwards. `zipfile` reads no other list of entries
when a password is set, so that the loop for empty lists only sets the last one. -/
def findPassword (z : List Entry) (passwords : List Password) : Except PyErr (Option Password) :=
  match candidates z with
  | [] => if z = [] then .ok (passwords.foldl (fun _ p => setPassword p) none) else .ok none
  | e :: _ => tryPasswords none e (none :: passwords.map some)

/-- What is there after mounting: the password that is set, and the index (zip.py:33-45). -/
def mount (o : Opts) (z : List Entry) (passwords : List Password) : Except PyErr (Option Password × Table) :=
  match findPassword z passwords with
  | .error x => .error x
  | .ok pwd => match rows o pwd z with
    | .error x => .error x
    | .ok rs => .ok (pwd, build [rs])

/-- `self.files` (zip.py:36). -/
def files (z : List Entry) : Dict Int Entry := Dict.update [] (z.map (fun (e : Entry) => ((e.offset : Int), e)))

/-- `open` (zip.py:138-147) and reading everything. -/
def openFile (z : List Entry) (pwd : Option Password) (fi : FileInfo) : Except PyErr Content :=
  match (files z).get? fi.oh with
  | none => .error .keyError
  | some e => read pwd e

/-! ## Specification -/

/-- The day after a day. -/
def nextDay (d : Date) : Date :=
  if d.day < daysIn d.year d.month then { d with day := d.day + 1 }
  else if d.month < 12 then ⟨d.year, d.month + 1, 1⟩ else ⟨d.year + 1, 1, 1⟩

/-- A day is that many days after the first of January 1970. -/
inductive DaysSince1970 : Date → Nat → Prop
  | epoch : DaysSince1970 ⟨1970, 1, 1⟩ 0
  | next {d n} : DaysSince1970 d n → DaysSince1970 (nextDay d) (n + 1)

/-- The Unix mode that an entry stores (4.4.15 of the ZIP specification). -/
def storedMode (e : Entry) : Nat := e.attr / 65536 % 65536

/-- An entry from a Unix system: the type is stored as well. -/
def FromUnix (e : Entry) : Prop := e.attr < 2 ^ 32 ∧ typeBits (storedMode e) ≠ 0 ∧
  (typeBits (storedMode e) = 4 ↔ ∃ s, e.filename = s ++ ['/'])

/-- C132 as claimed: what a Unix system stored is shown. -/
def C132_statement : Prop := ∀ e, FromUnix e → mode e = storedMode e

/-- The DOS date of an entry: seven bits for the years since 1980, four for the month, five for the day. -/
def dosDate (e : Entry) : Date := ⟨1980 + e.date / 512, e.date / 32 % 16, e.date % 32⟩

/-- The DOS date and time of an entry exist. The time is five bits for the hour, six for the minute, five for the seconds in steps of two. -/
def Dated (e : Entry) : Prop := (dosDate e).valid = true ∧ e.time / 2048 < 24 ∧ e.time / 32 % 64 < 60 ∧ 2 * (e.time % 32) < 60

/-- An entry whose contents can be read without a password. -/
def Plain (e : Entry) : Prop := e.password = none ∧ e.data.isSome = true

/-- The first file that is not empty. -/
def FirstFile (z : List Entry) (e : Entry) : Prop := ∃ before after, z = before ++ e :: after ∧ 0 < e.size ∧
  (∀ s, e.filename ≠ s ++ ['/']) ∧ ∀ x ∈ before, x.size = 0 ∨ ∃ s, x.filename = s ++ ['/']

/-- C133 as claimed: every archive without encryption, with fields of 16 bits, can be mounted. -/
def C133_statement : Prop :=
  ∀ (o : Opts) (z : List Entry), (∀ e ∈ z, e.date < 65536 ∧ e.time < 65536 ∧ e.password = none) →
    ∃ m, mount o z [] = .ok m

/-- C134 as claimed: if the password of every entry is given, every entry can be read. -/
def C134_statement : Prop :=
  ∀ (o : Opts) (z : List Entry) (passwords : List Password) (m : Option Password × Table),
    (∀ e ∈ z, e.data.isSome = true ∧ e.wrong = [] ∧ ∀ k, e.password = some k → k ∈ passwords ∧ k ≠ []) →
    (∀ e ∈ z, ∀ e' ∈ z, ∀ k k', e.password = some k → e'.password = some k' → k = k') →
    mount o z passwords = .ok m →
    ∀ e ∈ z, (read m.1 e).toOption = e.data

/-- The time of an entry in seconds since 1970. -/
def ModifiedAt (e : Entry) (t : Int) : Prop := ∃ days, DaysSince1970 (dosDate e) days ∧
  t = 86400 * days + 3600 * ((e.time / 2048 : Nat) : Int) + 60 * ((e.time / 32 % 64 : Nat) : Int) + 2 * ((e.time % 32 : Nat) : Int)

/-- The link target of an entry: its contents if it is a link. -/
def Target (o : Opts) (pwd : Option Password) (e : Entry) (l : Str) : Prop := e.attr < 2 ^ 32 →
  (typeBits (storedMode e) = 10 → ∃ c, read pwd e = .ok c ∧ o.decode c = some l) ∧ (typeBits (storedMode e) ≠ 10 → l = [])

/-- The columns with size, time and link target are those of an entry. -/
def Columns (o : Opts) (pwd : Option Password) (e : Entry) (rest : Nat) : Prop :=
  ∃ t l, ModifiedAt e t ∧ Target o pwd e l ∧ rest = o.pack e.size t l

/-- No two entries share a local header. -/
def DistinctHeaders (z : List Entry) : Prop := (z.map (·.offset)).Nodup

/-! ## Times -/

theorem leap_iff (y : Nat) : leap y = true ↔ y % 4 = 0 ∧ (y % 100 ≠ 0 ∨ y % 400 = 0) := by
  simp [leap]

theorem daysBeforeMonth_succ (y m : Nat) (h : 1 ≤ m) : daysBeforeMonth y (m + 1) = daysBeforeMonth y m + daysIn y m := by
  rw [daysBeforeMonth, if_neg (by omega)]

/-- A year has 365 or 366 days. -/
theorem year_length (y : Nat) (h : 1 ≤ y) : daysBeforeYear y + daysBeforeMonth y 12 + daysIn y 12 = daysBeforeYear (y + 1) := by
  have hm : daysBeforeMonth y 12 + daysIn y 12 = 365 + (if leap y then 1 else 0) := by
    cases h : leap y <;> simp only [daysBeforeMonth, daysIn, h] <;> rfl
  rw [Nat.add_assoc, hm]
  unfold daysBeforeYear
  have hl := leap_iff y
  obtain ⟨z, rfl⟩ : ∃ z, y = z + 1 := ⟨y - 1, by omega⟩
  simp only [Nat.add_sub_cancel]
  have e4 : (z + 1) / 4 = z / 4 + (if (z + 1) % 4 = 0 then 1 else 0) := by split <;> omega
  have e100 : (z + 1) / 100 = z / 100 + (if (z + 1) % 100 = 0 then 1 else 0) := by split <;> omega
  have e400 : (z + 1) / 400 = z / 400 + (if (z + 1) % 400 = 0 then 1 else 0) := by split <;> omega
  have hb : z / 100 ≤ z * 365 := by omega
  have hb' : (z + 1) / 100 ≤ (z + 1) * 365 := by omega
  by_cases h : leap (z + 1) = true
  · rw [if_pos h]
    obtain ⟨h1, h2⟩ := hl.mp h
    rw [if_pos h1] at e4
    rcases h2 with h2 | h2
    · rw [if_neg h2] at e100
      rw [if_neg (by omega)] at e400
      omega
    · rw [if_pos (by omega)] at e100
      rw [if_pos h2] at e400
      omega
  · rw [if_neg h]
    have hn : ¬ ((z + 1) % 4 = 0 ∧ ((z + 1) % 100 ≠ 0 ∨ (z + 1) % 400 = 0)) := fun hh => h (hl.mpr hh)
    by_cases h1 : (z + 1) % 4 = 0
    · have h2 : (z + 1) % 100 = 0 ∧ (z + 1) % 400 ≠ 0 := by omega
      rw [if_pos h1] at e4
      rw [if_pos h2.1] at e100
      rw [if_neg h2.2] at e400
      omega
    · rw [if_neg h1] at e4
      rw [if_neg (by omega)] at e100
      rw [if_neg (by omega)] at e400
      omega

theorem daysIn_pos (y m : Nat) : 1 ≤ daysIn y m := by
  unfold daysIn
  repeat' split
  all_goals omega

theorem ordinal_next (d : Date) (h1 : 1 ≤ d.year) (h2 : 1 ≤ d.month) (h3 : d.month ≤ 12) (h4 : d.day ≤ daysIn d.year d.month) :
    ordinal (nextDay d) = ordinal d + 1 := by
  unfold nextDay
  split
  · simp only [ordinal]; omega
  · split
    · simp only [ordinal, daysBeforeMonth_succ _ _ h2]; omega
    · have : d.month = 12 := by omega
      have hy := year_length d.year h1
      have h0 : daysBeforeMonth (d.year + 1) 1 = 0 := by simp [daysBeforeMonth]
      simp only [ordinal, h0, this] at *
      omega

theorem next_day (y m d : Nat) (h : d < daysIn y m) : nextDay ⟨y, m, d⟩ = ⟨y, m, d + 1⟩ := by
  unfold nextDay; rw [if_pos h]

theorem next_month (y m : Nat) (h : m < 12) : nextDay ⟨y, m, daysIn y m⟩ = ⟨y, m + 1, 1⟩ := by
  unfold nextDay; rw [if_neg (by simp), if_pos h]

theorem next_year (y : Nat) : nextDay ⟨y, 12, daysIn y 12⟩ = ⟨y + 1, 1, 1⟩ := by
  unfold nextDay; rw [if_neg (by simp), if_neg (by simp)]

theorem days_in_month (y m n : Nat) (h : DaysSince1970 ⟨y, m, 1⟩ n) : ∀ d, d < daysIn y m → DaysSince1970 ⟨y, m, d + 1⟩ (n + d) := by
  intro d
  induction d with
  | zero => intro _; exact h
  | succ d ih =>
    intro hd
    have := (ih (by omega)).next
    rwa [next_day _ _ _ (by omega)] at this

theorem months_in_year (y n : Nat) (h : DaysSince1970 ⟨y, 1, 1⟩ n) : ∀ m, m < 12 → DaysSince1970 ⟨y, m + 1, 1⟩ (n + daysBeforeMonth y (m + 1)) := by
  intro m
  induction m with
  | zero => intro _; simpa [daysBeforeMonth] using h
  | succ m ih =>
    intro hm
    have hpos := daysIn_pos y (m + 1)
    have := days_in_month y (m + 1) _ (ih (by omega)) (daysIn y (m + 1) - 1) (by omega)
    rw [Nat.sub_add_cancel hpos] at this
    have := this.next
    rw [next_month _ _ (by omega)] at this
    rw [daysBeforeMonth_succ _ _ (by omega)]
    have he : n + daysBeforeMonth y (m + 1) + (daysIn y (m + 1) - 1) + 1 = n + (daysBeforeMonth y (m + 1) + daysIn y (m + 1)) := by omega
    rwa [he] at this

theorem years (k : Nat) : DaysSince1970 ⟨1970 + k, 1, 1⟩ (daysBeforeYear (1970 + k) - 719162) ∧ 719162 ≤ daysBeforeYear (1970 + k) := by
  induction k with
  | zero => exact ⟨.epoch, by decide⟩
  | succ k ih =>
    have hpos := daysIn_pos (1970 + k) 12
    have := days_in_month _ 12 _ (months_in_year _ _ ih.1 11 (by omega)) (daysIn (1970 + k) 12 - 1) (by omega)
    rw [Nat.sub_add_cancel hpos] at this
    have := this.next
    rw [next_year] at this
    have hy := year_length (1970 + k) (by omega)
    refine ⟨?_, by rw [← Nat.add_assoc]; omega⟩
    rw [← Nat.add_assoc]
    have h2 := ih.2
    have he : daysBeforeYear (1970 + k) - 719162 + daysBeforeMonth (1970 + k) (11 + 1) + (daysIn (1970 + k) 12 - 1) + 1 =
        daysBeforeYear (1970 + k + 1) - 719162 := by
      rw [show 11 + 1 = 12 from rfl]
      omega
    rwa [he] at this

/-- The numbering of days is the calendar. -/
theorem ordinal_days (d : Date) (h : d.valid = true) (hy : 1970 ≤ d.year) : 719163 ≤ ordinal d ∧ DaysSince1970 d (ordinal d - 719163) := by
  simp only [Date.valid, Bool.and_eq_true, decide_eq_true_eq] at h
  obtain ⟨y, m, dd⟩ := d
  simp only at h hy
  obtain ⟨k, rfl⟩ : ∃ k, y = 1970 + k := ⟨y - 1970, by omega⟩
  obtain ⟨m, rfl⟩ : ∃ j, m = j + 1 := ⟨m - 1, by omega⟩
  obtain ⟨dd, rfl⟩ : ∃ j, dd = j + 1 := ⟨dd - 1, by omega⟩
  obtain ⟨h1, h2⟩ := years k
  have := days_in_month _ _ _ (months_in_year _ _ h1 m (by omega)) dd (by omega)
  simp only [ordinal]
  refine ⟨by omega, ?_⟩
  have he : daysBeforeYear (1970 + k) - 719162 + daysBeforeMonth (1970 + k) (m + 1) + dd =
      daysBeforeYear (1970 + k) + daysBeforeMonth (1970 + k) (m + 1) + (dd + 1) - 719163 := by omega
  rwa [he] at this

/-! ## Rows -/

theorem rows_ok {o : Opts} {pwd : Option Password} : ∀ {z : List Entry} {rs : List Row}, rows o pwd z = .ok rs →
    (∀ e ∈ z, ∃ r ∈ rs, row o pwd e = .ok r) ∧ (∀ r ∈ rs, ∃ e ∈ z, row o pwd e = .ok r) := by
  intro z
  induction z with
  | nil =>
    intro rs h
    simp only [rows, Except.ok.injEq] at h
    subst h
    simp
  | cons e z ih =>
    intro rs h
    rw [rows] at h
    split at h
    · cases h
    · next r hr =>
      split at h
      · cases h
      · next rs' hrs =>
        cases h
        obtain ⟨h1, h2⟩ := ih hrs
        refine ⟨?_, ?_⟩
        · intro x hx
          rcases List.mem_cons.mp hx with rfl | hx
          · exact ⟨r, by simp, hr⟩
          · obtain ⟨r', hr', he⟩ := h1 x hx
            exact ⟨r', by simp [hr'], he⟩
        · intro x hx
          rcases List.mem_cons.mp hx with rfl | hx
          · exact ⟨e, by simp, hr⟩
          · obtain ⟨e', he', h'⟩ := h2 x hx
            exact ⟨e', by simp [he'], h'⟩

theorem rows_total {o : Opts} {pwd : Option Password} : ∀ {z : List Entry}, (∀ e ∈ z, ∃ r, row o pwd e = .ok r) →
    ∃ rs, rows o pwd z = .ok rs := by
  intro z
  induction z with
  | nil => intro _; exact ⟨[], rfl⟩
  | cons e z ih =>
    intro h
    obtain ⟨r, hr⟩ := h e (by simp)
    obtain ⟨rs, hrs⟩ := ih (fun x hx => h x (by simp [hx]))
    refine ⟨r :: rs, ?_⟩
    rw [rows, hr]
    simp only [hrs]

theorem isLink_type (e : Entry) (h : e.attr < 2 ^ 32) : isLink e = true ↔ typeBits (storedMode e) = 10 := by
  unfold isLink storedMode
  rw [and_fmt, beq_iff_eq, Nat.shiftRight_eq_div_pow, show e.attr / 65536 % 65536 = e.attr / 2 ^ 16 by omega]
  omega

theorem linkname_target {o : Opts} {pwd : Option Password} {e : Entry} {l : Str} (h : linkname o pwd e = .ok l) : Target o pwd e l := by
  intro hlt
  have hl := isLink_type e hlt
  unfold linkname at h
  split at h
  · next hi =>
    refine ⟨fun _ => ?_, fun hn => absurd (hl.mp hi) hn⟩
    split at h
    · cases h
    · next c hc =>
      split at h
      · cases h
      · next s hs => cases h; exact ⟨c, hc, hs⟩
  · next hi =>
    cases h
    exact ⟨fun ht => absurd (hl.mpr ht) hi, fun _ => rfl⟩

theorem entryDate_eq (e : Entry) : entryDate e = dosDate e := by
  unfold entryDate dosDate
  rw [Nat.shiftRight_eq_div_pow, Nat.shiftRight_eq_div_pow, show (0xF : Nat) = 2 ^ 4 - 1 from rfl, show (0x1F : Nat) = 2 ^ 5 - 1 from rfl,
    Nat.and_two_pow_sub_one_eq_mod, Nat.and_two_pow_sub_one_eq_mod, Nat.add_comm]

theorem entryTime_eq (e : Entry) : entryTime e = ⟨e.time / 2048, e.time / 32 % 64, 2 * (e.time % 32)⟩ := by
  unfold entryTime
  rw [Nat.shiftRight_eq_div_pow, Nat.shiftRight_eq_div_pow, show (0x3F : Nat) = 2 ^ 6 - 1 from rfl, show (0x1F : Nat) = 2 ^ 5 - 1 from rfl,
    Nat.and_two_pow_sub_one_eq_mod, Nat.and_two_pow_sub_one_eq_mod, Nat.mul_comm]

theorem dated_iff (e : Entry) : Dated e ↔ (entryDate e).valid = true ∧ (entryTime e).valid = true := by
  unfold Dated
  rw [entryDate_eq, entryTime_eq]
  simp only [FatDates.Time.valid, Bool.and_eq_true, decide_eq_true_eq, and_assoc]

theorem mtime_time {e : Entry} {t : Int} (h : mtime e = .ok t) : Dated e ∧ ModifiedAt e t := by
  unfold mtime at h
  split at h
  · next hv =>
    rw [Bool.and_eq_true] at hv
    obtain ⟨h1, h2⟩ := ordinal_days (entryDate e) hv.1 (by simp only [entryDate]; omega)
    refine ⟨(dated_iff e).mpr hv, _, entryDate_eq e ▸ h2, ?_⟩
    rw [Except.ok.injEq] at h
    rw [← h]
    unfold timestamp
    rw [entryTime_eq]
    rw [entryDate_eq] at h1 ⊢
    simp only
    omega
  · cases h

theorem row_columns {o : Opts} {pwd : Option Password} {e : Entry} {r : Row} (h : row o pwd e = .ok r) :
    r.1 = ⟨(place o e).1, (place o e).2, e.offset⟩ ∧ r.2.mode = mode e ∧ Columns o pwd e r.2.rest := by
  unfold row at h
  split at h
  · cases h
  · next t ht =>
    split at h
    · cases h
    · next l hl =>
      cases h
      exact ⟨rfl, rfl, t, l, (mtime_time ht).2, linkname_target hl, rfl⟩

theorem mount_ok {o : Opts} {z : List Entry} {ps : List Password} {m : Option Password × Table} (h : mount o z ps = .ok m) :
    findPassword z ps = .ok m.1 ∧ ∃ rs, rows o m.1 z = .ok rs ∧ m.2 = build [rs] := by
  unfold mount at h
  split at h
  · cases h
  · next pwd hp =>
    split at h
    · cases h
    · next rs hrs => cases h; exact ⟨hp, rs, hrs, rfl⟩

theorem isDirEntry_iff (e : Entry) : isDirEntry e = true ↔ ∃ s, e.filename = s ++ ['/'] := by
  unfold isDirEntry endsWith
  rw [List.isSuffixOf_iff_suffix]
  exact ⟨fun ⟨s, h⟩ => ⟨s, h.symm⟩, fun ⟨s, h⟩ => ⟨s, h.symm⟩⟩

theorem candidates_head {z : List Entry} {e : Entry} : (candidates z).head? = some e ↔ FirstFile z e := by
  have hd : ∀ x : Entry, (!isDirEntry x && decide (x.size > 0)) = true ↔ 0 < x.size ∧ ∀ s, x.filename ≠ s ++ ['/'] := by
    intro x
    have := isDirEntry_iff x
    rw [Bool.and_eq_true, Bool.not_eq_true', decide_eq_true_eq, ← Bool.not_eq_true, this]
    exact ⟨fun ⟨h1, h2⟩ => ⟨h2, fun s hs => h1 ⟨s, hs⟩⟩, fun ⟨h1, h2⟩ => ⟨fun ⟨s, hs⟩ => h2 s hs, h1⟩⟩
  unfold candidates
  rw [List.head?_filter]
  constructor
  · intro h
    obtain ⟨h1, as, bs, h2, h3⟩ := List.find?_eq_some_iff_append.mp h
    obtain ⟨h4, h5⟩ := (hd e).mp h1
    refine ⟨as, bs, h2, h4, h5, fun x hx => ?_⟩
    have := h3 x hx
    apply Classical.byContradiction
    intro hno
    have hx' : (!isDirEntry x && decide (x.size > 0)) = true := (hd x).mpr ⟨by
      apply Nat.pos_of_ne_zero; exact fun h0 => hno (.inl h0), fun s hs => hno (.inr ⟨s, hs⟩)⟩
    rw [hx'] at this
    cases this
  · rintro ⟨as, bs, h2, h4, h5, h6⟩
    refine List.find?_eq_some_iff_append.mpr ⟨(hd e).mpr ⟨h4, h5⟩, as, bs, h2, fun x hx => ?_⟩
    rw [Bool.not_eq_true', ← Bool.not_eq_true, hd]
    rintro ⟨h7, h8⟩
    rcases h6 x hx with h | ⟨t, h⟩
    · omega
    · exact h8 t h

theorem offset_inj {z : List Entry} (hd : DistinctHeaders z) {a b : Entry} (ha : a ∈ z) (hb : b ∈ z) (h : a.offset = b.offset) : a = b := by
  unfold DistinctHeaders at hd
  induction z with
  | nil => simp at ha
  | cons x z ih =>
    rw [List.map_cons, List.nodup_cons] at hd
    rcases List.mem_cons.mp ha with h1 | h1 <;> rcases List.mem_cons.mp hb with h2 | h2
    · rw [h1, h2]
    · exact absurd (List.mem_map.mpr ⟨b, h2, by rw [← h, h1]⟩) hd.1
    · exact absurd (List.mem_map.mpr ⟨a, h1, by rw [h, h2]⟩) hd.1
    · exact ih hd.2 h1 h2

theorem files_get {z : List Entry} (hd : DistinctHeaders z) {e : Entry} (he : e ∈ z) : (files z).get? e.offset = some e := by
  have hn : (Dict.keys (z.map (fun (e : Entry) => ((e.offset : Int), e)))).Nodup := by
    unfold DistinctHeaders at hd
    unfold Dict.keys
    rw [List.map_map]
    have : z.map ((fun (p : Int × Entry) => p.1) ∘ fun (e : Entry) => ((e.offset : Int), e)) = (z.map (·.offset)).map (fun (n : Nat) => (n : Int)) := by
      rw [List.map_map]; rfl
    rw [this]
    exact List.Pairwise.map _ (fun a b hab hh => hab (Int.ofNat.inj hh)) hd
  unfold files
  rw [Dict.get?_update _ hn, Dict.get?_eq_some_of_mem _ hn (List.mem_map.mpr ⟨e, he, rfl⟩)]
  rfl

theorem place_eq {o : Opts} {e : Entry} {ns : List Str} {n : Str} (hn : ∀ m ∈ ns ++ [n], IsName m)
    (h : normpath (o.transform e.filename) = canonical (ns ++ [n])) : place o e = (folderPath ns, n) := by
  unfold place splitPath
  rw [h, canonical_append, rsplit1_append _ _ (hn n (by simp)).2.1]
  rfl

/-- The path of an entry is known from its row. -/
theorem place_inj {o : Opts} {e : Entry} {ns : List Str} {n : Str}
    (h : place o e = (folderPath ns, n)) : normpath (o.transform e.filename) = canonical (ns ++ [n]) := by
  unfold place splitPath at h
  cases hs : rsplit1 '/' (normpath (o.transform e.filename)) with
  | none =>
    rw [rsplit1_none] at hs
    exact absurd (by simp [normpath]) hs
  | some p =>
    rw [hs, Option.getD_some] at h
    subst h
    rw [(rsplit1_some hs).1, canonical_append]

/-! ## C132 -/

theorem shifted (e : Entry) (h : e.attr < 2 ^ 32) : e.attr >>> 16 = storedMode e := by
  rw [Nat.shiftRight_eq_div_pow]
  unfold storedMode
  omega

theorem and_permissions (n : Nat) : n &&& 0o777 = n % 512 := Nat.and_two_pow_sub_one_eq_mod n 9

theorem or_type (m t : Nat) (h : m < 4096) : m ||| t * 4096 = t * 4096 + m := by
  rw [Nat.or_comm]
  have := or_shift t 12 m h
  rwa [Nat.shiftLeft_eq] at this

theorem permissions_lt (e : Entry) : permissions e < 4096 := by
  unfold permissions
  rw [and_permissions]
  split
  · split <;> omega
  · omega

theorem mode_eq (e : Entry) : mode e = fileType e / 4096 * 4096 + permissions e := by
  unfold mode
  rw [← or_type _ _ (permissions_lt e)]
  have : fileType e = fileType e / 4096 * 4096 := by
    unfold fileType
    repeat' split
    all_goals rfl
  rw [← this]

/-- C132 for regular files, folders and links with permissions, and without the bits for setuid, setgid and sticky. What is
missing: other types are shown as regular files, the three bits are dropped, and no permissions at all become 660 or 770. -/
theorem C132_partial (e : Entry) (h : FromUnix e)
    (ht : typeBits (storedMode e) = 4 ∨ typeBits (storedMode e) = 8 ∨ typeBits (storedMode e) = 10)
    (hs : storedMode e / 512 % 8 = 0) (hp : storedMode e % 512 ≠ 0) : mode e = storedMode e := by
  obtain ⟨hlt, -, hd⟩ := h
  have hl := isLink_type e hlt
  rw [mode_eq]
  have h1 : permissions e = storedMode e % 512 := by
    unfold permissions
    rw [shifted e hlt, and_permissions, if_neg hp]
  have h2 : fileType e = typeBits (storedMode e) * 4096 := by
    unfold fileType
    rw [← isDirEntry_iff] at hd
    rcases ht with ht | ht | ht
    · rw [if_neg (by rw [hl]; omega), if_pos (hd.mp ht), ht]
    · rw [if_neg (by rw [hl]; omega), if_neg (fun hh => by have := hd.mpr hh; omega), ht]
    · rw [if_pos (hl.mpr ht), ht]
  rw [h1, h2, Nat.mul_div_cancel _ (by decide)]
  have hb : storedMode e < 65536 := Nat.mod_lt _ (by decide)
  unfold typeBits
  omega

/-- C132 for archives that store no modes: folders by their name. -/
theorem C132_dos (e : Entry) (h : e.attr < 65536) :
    (∀ s, e.filename = s ++ ['/'] → mode e = 0o40770) ∧ ((∀ s, e.filename ≠ s ++ ['/']) → mode e = 0o100660) := by
  have h0 : e.attr >>> 16 = 0 := by rw [Nat.shiftRight_eq_div_pow]; omega
  have hl : isLink e = false := by unfold isLink; rw [h0]; rfl
  refine ⟨fun s hs => ?_, fun hs => ?_⟩
  · have hd := (isDirEntry_iff e).mpr ⟨s, hs⟩
    unfold mode permissions fileType
    rw [h0, hl, hd]
    rfl
  · have hd : isDirEntry e = false := by
      rw [← Bool.not_eq_true, isDirEntry_iff]
      exact fun ⟨s, h⟩ => hs s h
    unfold mode permissions fileType
    rw [h0, hl, hd]
    rfl

/-- C132, the types for all entries: links by their mode, folders by their name, everything else is a regular file; and the nine
permission bits, if one is set. -/
theorem C132_types (e : Entry) (h : e.attr < 2 ^ 32) :
    (typeBits (storedMode e) = 10 → typeBits (mode e) = 10) ∧
    (typeBits (storedMode e) ≠ 10 → (∃ s, e.filename = s ++ ['/']) → typeBits (mode e) = 4) ∧
    (typeBits (storedMode e) ≠ 10 → (¬ ∃ s, e.filename = s ++ ['/']) → typeBits (mode e) = 8) ∧
    (storedMode e % 512 ≠ 0 → mode e % 4096 = storedMode e % 512) := by
  have hp := permissions_lt e
  have hl := isLink_type e h
  rw [← isDirEntry_iff, mode_eq]
  refine ⟨fun h1 => ?_, fun h1 h2 => ?_, fun h1 h2 => ?_, fun h1 => ?_⟩
  · rw [fileType, if_pos (hl.mpr h1)]; unfold typeBits; omega
  · rw [fileType, if_neg (fun hh => h1 (hl.mp hh)), if_pos h2]; unfold typeBits; omega
  · rw [fileType, if_neg (fun hh => h1 (hl.mp hh)), if_neg h2]; unfold typeBits; omega
  · have : permissions e = storedMode e % 512 := by
      unfold permissions
      rw [shifted e h, and_permissions, if_neg h1]
    omega

/-- A pipe, and a program that runs as its owner. -/
def pipe : Entry := ⟨"p".toList, 0x21, 0, 0o10644 * 65536, 0, 0, none, [], some []⟩

/-- C132 is violated: a named pipe is shown as a regular file. -/
theorem C132_violated : ¬ C132_statement := by
  intro h
  have := h pipe ⟨by decide, by decide, by
    constructor
    · intro hh; exact absurd hh (by decide)
    · rintro ⟨s, hs⟩
      have := congrArg List.getLast? hs
      simp [pipe] at this⟩
  exact absurd this (by decide)

example : mode pipe = 0o100644 := by decide
example : mode { pipe with attr := 0o104755 * 65536 } = 0o100755 := by decide
example : mode { pipe with attr := 0o100000 * 65536 } = 0o100660 := by decide
example : mode { pipe with attr := 0o120777 * 65536 } = 0o120777 ∧ typeBits (storedMode { pipe with attr := 0o120777 * 65536 }) = 10 := by decide
example : mode { pipe with filename := "d/".toList, attr := 0o40755 * 65536 + 16 } = 0o40755 := by decide

/-! ## C133 -/

/-- C133, times: an entry whose date and time exist is shown with the seconds since 1970. -/
theorem C133_time (e : Entry) (h : Dated e) : ∃ t, ModifiedAt e t ∧ mtime e = .ok t := by
  have ht : mtime e = .ok (timestamp (entryDate e) (entryTime e)) := by
    have h := (dated_iff e).mp h
    unfold mtime
    rw [h.1, h.2]
    rfl
  exact ⟨_, (mtime_time ht).2, ht⟩

theorem findPassword_plain {z : List Entry} (h : ∀ e ∈ (candidates z).head?, Plain e) (ps : List Password) (hz : z ≠ [] ∨ ps = []) :
    findPassword z ps = .ok none := by
  unfold findPassword
  split
  · split
    · next hh =>
      rcases hz with hz | hz
      · exact absurd hh hz
      · rw [hz]; rfl
    · rfl
  · next e es hc =>
    have := h e (by rw [hc]; rfl)
    have ho : opens none e = true := by
      unfold opens
      rw [this.1]
      exact this.2
    rw [tryPasswords]
    simp only [Option.bind_none, Option.none_or, ho, if_true]

/-- C133 for archives without encryption: it is enough that the dates and times exist, that the first file that is not empty can be
decompressed, and that the targets of the links can be read and decoded. What is missing: archives with other dates, or with a first
file that cannot be decompressed, cannot be mounted at all. -/
theorem C133_partial (o : Opts) (z : List Entry) (h1 : ∀ e ∈ z, Dated e) (h2 : ∀ e, FirstFile z e → Plain e)
    (h3 : ∀ e ∈ z, typeBits (storedMode e) = 10 → e.attr < 2 ^ 32 ∧ e.password = none ∧ ∃ c s, e.data = some c ∧ o.decode c = some s)
    (h4 : ∀ e ∈ z, e.attr < 2 ^ 32) : ∃ m, mount o z [] = .ok m := by
  unfold mount
  rw [findPassword_plain (fun e he => h2 e (candidates_head.mp he)) [] (.inr rfl)]
  simp only
  obtain ⟨rs, hrs⟩ := rows_total (o := o) (pwd := none) (z := z) (by
    intro e he
    obtain ⟨d, -, ht⟩ := C133_time e (h1 e he)
    unfold row
    rw [ht]
    simp only
    unfold linkname
    by_cases hl : isLink e = true
    · obtain ⟨-, hp, c, s, hc, hs⟩ := h3 e he ((isLink_type e (h4 e he)).mp hl)
      have hr : read none e = .ok c := by
        unfold read
        simp only [hp, hc]
      rw [if_pos hl, hr]
      simp only [hs]
      exact ⟨_, rfl⟩
    · rw [if_neg hl]
      exact ⟨_, rfl⟩)
  rw [hrs]
  exact ⟨_, rfl⟩

/-- Options for the examples. -/
def plainOpts : Opts := ⟨id, fun _ => some [], fun _ _ _ => 0⟩

/-- An entry without a date. -/
def undated : Entry := { pipe with date := 0 }

/-- C133 is violated: some programs store no date at all, that is, the day 0 of the month 0. Then the archive cannot be mounted. -/
theorem C133_violated : ¬ C133_statement := by
  intro h
  obtain ⟨m, hm⟩ := h plainOpts [undated] (by
    intro e he
    rw [List.mem_singleton.mp he]
    exact ⟨by decide, by decide, rfl⟩)
  have : mount plainOpts [undated] [] = .error .valueError := by
    unfold mount findPassword
    have hc : candidates [undated] = [] := by decide
    have ht : mtime undated = .error .valueError := by
      unfold mtime
      rw [if_neg (by decide)]
    rw [hc]
    simp only [rows, row, ht]
    rfl
  rw [this] at hm
  cases hm

/-- An archive whose first file has an unknown compression, and whose second file is stored. -/
def unknownFirst : List Entry := [{ pipe with size := 1, data := none }, { pipe with offset := 50, size := 1, data := some [7] }]

/-- C133 is violated in another way: if the first file cannot be decompressed, the other ones cannot be reached either. -/
theorem C133_first_violated : mount plainOpts unknownFirst [] = .error .runtimeError := by
  unfold mount
  have : findPassword unknownFirst [] = .error .runtimeError := by decide
  rw [this]

/-- An entry for a link. -/
def pipeLink : Entry := { pipe with attr := 0o120777 * 65536 }

/-- C133 is violated in a third way: a link whose target is not UTF-8 keeps the archive from being mounted. -/
theorem C133_link_violated (o : Opts) (c : Content) (h : o.decode c = none) :
    mount o [{ pipe with attr := 0o120777 * 65536, data := some c }] [] = .error .valueError := by
  have hl : linkname o none { pipe with attr := 0o120777 * 65536, data := some c } = .error .valueError := by
    have hi : isLink { pipe with attr := 0o120777 * 65536, data := some c } = true := show isLink pipeLink = true by decide
    unfold linkname
    rw [if_pos hi]
    simp only [read, pipe, h]
  obtain ⟨t, -, ht⟩ := C133_time { pipe with attr := 0o120777 * 65536, data := some c }
    (show Dated pipeLink by unfold Dated; decide)
  have hp : findPassword [{ pipe with attr := 0o120777 * 65536, data := some c }] [] = .ok none :=
    findPassword_plain (by
      have hc : candidates [{ pipe with attr := 0o120777 * 65536, data := some c }] = [] := by simp [candidates, pipe]
      rw [hc]
      intro e he
      cases he) [] (.inr rfl)
  unfold mount
  rw [hp]
  simp only [rows, row, ht, hl]

example : Dated pipe ∧ entryDate pipe = ⟨1980, 1, 1⟩ ∧ timestamp ⟨1980, 1, 1⟩ ⟨0, 0, 0⟩ = 315532800 ∧
    timestamp ⟨2024, 3, 1⟩ ⟨12, 30, 2⟩ = 1709296202 := by
  refine ⟨by unfold Dated; decide, by decide, by decide +kernel, by decide +kernel⟩

/-! ## C134 -/

theorem tryPasswords_ok {e : Entry} : ∀ {ps : List (Option Password)} {pwd r : Option Password},
    tryPasswords pwd e ps = .ok r → opens r e = true := by
  intro ps
  induction ps with
  | nil => intro pwd r h; cases h
  | cons p ps ih =>
    intro pwd r h
    rw [tryPasswords] at h
    split at h
    · next ho => cases h; exact ho
    · exact ih h

/-- The password that is set in the end is a given one. -/
theorem tryPasswords_given {e : Entry} : ∀ {ps : List (Option Password)} {pwd r : Option Password},
    tryPasswords pwd e ps = .ok r → r = pwd ∨ ∃ p, r = some p ∧ some p ∈ ps := by
  intro ps
  induction ps with
  | nil => intro pwd r h; cases h
  | cons p ps ih =>
    intro pwd r h
    have hor : (p.bind setPassword).or pwd = pwd ∨ ∃ q, (p.bind setPassword).or pwd = some q ∧ p = some q := by
      cases p with
      | none => exact .inl rfl
      | some q =>
        rw [Option.bind_some, setPassword]
        split
        · exact .inl rfl
        · exact .inr ⟨q, rfl, rfl⟩
    rw [tryPasswords] at h
    split at h
    · cases h
      rcases hor with hor | ⟨q, h1, h2⟩
      · exact .inl hor
      · exact .inr ⟨q, h1, by rw [h2]; simp⟩
    · rcases ih h with h1 | ⟨q, h1, h2⟩
      · rw [h1]
        rcases hor with hor | ⟨q, h1, h2⟩
        · exact .inl hor
        · exact .inr ⟨q, h1, by rw [h2]; simp⟩
      · exact .inr ⟨q, h1, by simp [h2]⟩

/-- C134 for archives whose first file that is not empty is encrypted, provided that none of the other passwords passes the check for this
file: every entry with the same password can be read. What is missing: with a plain file in front no password is set. -/
theorem C134_partial (o : Opts) (z : List Entry) (passwords : List Password) (m : Option Password × Table) (e₀ : Entry) (k : Password)
    (hf : FirstFile z e₀) (hk : e₀.password = some k) (hw : ∀ p ∈ passwords, p ∉ e₀.wrong)
    (hm : mount o z passwords = .ok m) (e : Entry) (h : e.password = some k ∨ e.password = none) :
    (read m.1 e).toOption = e.data := by
  rw [← candidates_head] at hf
  obtain ⟨hp, -⟩ := mount_ok hm
  have hr : m.1 = some k := by
    unfold findPassword at hp
    split at hp
    · next hc => rw [hc] at hf; cases hf
    · next e' es hc =>
      rw [hc, List.head?_cons, Option.some.injEq] at hf
      subst hf
      have ho := tryPasswords_ok hp
      have hg := tryPasswords_given hp
      unfold opens at ho
      rw [hk] at ho
      rcases hg with hg | ⟨p, hg, hmem⟩
      · rw [hg] at ho; exact absurd ho (by simp)
      · rw [hg] at ho ⊢
        simp only [Bool.and_eq_true, Bool.or_eq_true, beq_iff_eq, List.contains_iff_mem] at ho
        rcases ho.1 with h1 | h1
        · rw [h1]
        · refine absurd h1 (hw p ?_)
          simpa using hmem
  rw [hr]
  unfold read
  rcases h with h | h
  · rw [h]
    cases hd : e.data <;> simp [Except.toOption]
  · rw [h]
    cases hd : e.data <;> simp [Except.toOption]

theorem tryPasswords_total {e : Entry} {k : Password} (hk : e.password = some k) (hd : e.data.isSome = true) (hne : k ≠ []) :
    ∀ {ps : List (Option Password)} {pwd : Option Password}, some k ∈ ps → ∃ r, tryPasswords pwd e ps = .ok r := by
  intro ps
  induction ps with
  | nil => intro pwd h; cases h
  | cons p ps ih =>
    intro pwd h
    rw [tryPasswords]
    split
    · exact ⟨_, rfl⟩
    · next ho =>
      rcases List.mem_cons.mp h with h | h
      · subst h
        refine absurd ?_ ho
        rw [Option.bind_some, setPassword, if_neg hne, Option.some_or]
        unfold opens
        rw [hk]
        simp [hd]
      · exact ih h

/-- C134: with the password of the first file among those given, a password is found. -/
theorem C134_found (z : List Entry) (passwords : List Password) (e₀ : Entry) (k : Password) (hf : FirstFile z e₀)
    (hk : e₀.password = some k) (hd : e₀.data.isSome = true) (hne : k ≠ []) (hmem : k ∈ passwords) :
    ∃ r, findPassword z passwords = .ok r := by
  rw [← candidates_head] at hf
  unfold findPassword
  split
  · next hc => rw [hc] at hf; cases hf
  · next e es hc =>
    rw [hc, List.head?_cons, Option.some.injEq] at hf
    subst hf
    exact tryPasswords_total hk hd hne (by simp [hmem])

/-- C134: without a password that opens the first file that is not empty, nothing is mounted. -/
theorem C134_refused (o : Opts) (z : List Entry) (passwords : List Password) (e₀ : Entry) (k : Password) (hf : FirstFile z e₀)
    (hk : e₀.password = some k) (hno : k ∉ passwords) (hw : ∀ p ∈ passwords, p ∉ e₀.wrong) :
    ∃ x, mount o z passwords = .error x := by
  rw [← candidates_head] at hf
  cases hm : mount o z passwords with
  | error x => exact ⟨x, rfl⟩
  | ok m =>
    obtain ⟨hp, -⟩ := mount_ok hm
    unfold findPassword at hp
    split at hp
    · next hc => rw [hc] at hf; cases hf
    · next e es hc =>
      rw [hc, List.head?_cons, Option.some.injEq] at hf
      subst hf
      have ho := tryPasswords_ok hp
      unfold opens at ho
      rw [hk] at ho
      rcases tryPasswords_given hp with hg | ⟨p, hg, hmem⟩
      · rw [hg] at ho; exact absurd ho (by simp)
      · rw [hg] at ho
        have hmem' : p ∈ passwords := by simpa using hmem
        simp only [Bool.and_eq_true, Bool.or_eq_true, beq_iff_eq, List.contains_iff_mem] at ho
        rcases ho.1 with h1 | h1
        · exact absurd (h1 ▸ hmem') hno
        · exact absurd h1 (hw p hmem')

/-- An archive with a plain file in front of an encrypted one. -/
def mixed : List Entry := [{ pipe with size := 1, data := some [7] },
  { pipe with filename := "q".toList, offset := 50, size := 1, password := some [65], data := some [8] }]

theorem mixed_rows : ∃ rs, rows plainOpts none mixed = .ok rs := by
  refine rows_total ?_
  intro e he
  have hd : Dated e ∧ isLink e = false := by
    simp only [mixed, List.mem_cons, List.not_mem_nil, or_false] at he
    rcases he with rfl | rfl <;> exact ⟨by unfold Dated; decide, by decide⟩
  obtain ⟨d, -, ht⟩ := C133_time e hd.1
  unfold row linkname
  rw [ht, hd.2]
  exact ⟨_, rfl⟩

/-- C134 is violated: with a plain file in front, the given password is not set, and the other file cannot be read. -/
theorem C134_violated : ¬ C134_statement := by
  intro h
  obtain ⟨rs, hrs⟩ := mixed_rows
  have hp : findPassword mixed [[65]] = .ok none := by decide
  have hm : mount plainOpts mixed [[65]] = .ok (none, build [rs]) := by
    unfold mount
    rw [hp]
    simp only [hrs]
  have := h plainOpts mixed [[65]] _ (by
    intro e he
    simp only [mixed, List.mem_cons, List.not_mem_nil, or_false] at he
    rcases he with rfl | rfl
    · exact ⟨rfl, rfl, fun k hk => by cases hk⟩
    · exact ⟨rfl, rfl, fun k hk => by cases hk; exact ⟨by simp, by simp⟩⟩) (by
    intro e he e' he' k k' hk hk'
    simp only [mixed, List.mem_cons, List.not_mem_nil, or_false] at he he'
    rcases he with rfl | rfl
    · cases hk
    · rcases he' with rfl | rfl
      · cases hk'
      · cases hk; cases hk'; rfl) hm _ (List.mem_cons_of_mem _ (List.mem_cons_self))
  cases this

example : ∃ e, FirstFile mixed.reverse e ∧ e.password = some [65] :=
  ⟨_, ⟨[], _, rfl, by decide, by
    intro s hs
    have := congrArg List.getLast? hs
    simp at this, by simp⟩, rfl⟩

example : (candidates mixed.reverse).head?.bind (·.password) = some [65] ∧ findPassword mixed.reverse [[66], [65]] = .ok (some [65]) := by
  decide

/-! ## C135 -/

/-- C135: a file that is found under a path, in any version, is an entry with this path, and opening it gives the contents of this entry. -/
theorem C135_open (o : Opts) (z : List Entry) (ps : List Password) (m : Option Password × Table) (hm : mount o z ps = .ok m)
    (hd : DistinctHeaders z) (ns : List Str) (n : Str) (hn : ∀ x ∈ ns ++ [n], IsName x) (version : Int) (fi : FileInfo)
    (hl : lookup m.2 (canonical (ns ++ [n])) version = some fi) (hf : isDir fi.info.mode = false) :
    ∃ e ∈ z, normpath (o.transform e.filename) = canonical (ns ++ [n]) ∧ fi.info.mode = mode e ∧ Columns o m.1 e fi.info.rest ∧ openFile z m.1 fi = read m.1 e := by
  obtain ⟨-, rs, hrs, ht⟩ := mount_ok hm
  rw [ht, C15_lookup (build [rs]) (build_nodup _) ns n hn _ (query_canonical _ hn) _ (entries_exist (build_nodup _) _ _)] at hl
  have hmem : ∃ r ∈ orderAsc (rowsAt (build [rs]) (folderPath ns) n), toFileInfo r = fi := by
    split at hl
    · rw [Option.map_eq_some_iff] at hl
      obtain ⟨r, hr, he⟩ := hl
      exact ⟨r, List.mem_of_getElem? hr, he⟩
    · rw [Option.map_eq_some_iff] at hl
      obtain ⟨r, hr, he⟩ := hl
      exact ⟨r, List.mem_reverse.mp (List.mem_of_getElem? hr), he⟩
  obtain ⟨r, hr, rfl⟩ := hmem
  obtain ⟨h1, h2, h3⟩ := ((entries_exist (build_nodup [rs]) (folderPath ns) n).mem r).mp hr
  rcases mem_build [rs] r h1 with hb | hb
  · simp only [List.flatten_cons, List.flatten_nil, List.append_nil] at hb
    obtain ⟨e, he, hrow⟩ := (rows_ok hrs).2 r hb
    obtain ⟨hk, hmode, hcol⟩ := row_columns hrow
    rw [hk] at h2 h3
    refine ⟨e, he, place_inj (o := o) (Prod.ext h2 h3), hmode, hcol, ?_⟩
    unfold openFile
    have ho : (toFileInfo r).oh = (e.offset : Int) := by simp only [toFileInfo, hk]
    rw [ho, files_get hd he]
  · exfalso
    rw [show (toFileInfo r).info.mode = r.2.mode from rfl, generated_dir _ r hb] at hf
    exact absurd hf (by decide)

/-- C135: every entry with a proper name is found in some version of its path, with its mode, and opening gives its contents. -/
theorem C135_reach (o : Opts) (z : List Entry) (ps : List Password) (m : Option Password × Table) (hm : mount o z ps = .ok m)
    (hd : DistinctHeaders z) (e : Entry) (he : e ∈ z) (ns : List Str) (n : Str) (hn : ∀ x ∈ ns ++ [n], IsName x)
    (hp : normpath (o.transform e.filename) = canonical (ns ++ [n])) :
    ∃ version fi, lookup m.2 (canonical (ns ++ [n])) version = some fi ∧ fi.info.mode = mode e ∧ Columns o m.1 e fi.info.rest ∧ openFile z m.1 fi = read m.1 e := by
  obtain ⟨-, rs, hrs, ht⟩ := mount_ok hm
  obtain ⟨r, hr, hrow⟩ := (rows_ok hrs).1 e he
  obtain ⟨hk, hmode, hcol⟩ := row_columns hrow
  have hb : r ∈ build [rs] := by
    have inv := insertAll_inv [rs]
    simp only [List.flatten_cons, List.flatten_nil, List.append_nil] at inv
    have hkey := mem_files_keys rs r hr
    rw [Dict.keys, List.mem_map] at hkey
    obtain ⟨q, hq, hqk⟩ := hkey
    have hq' := mem_files _ _ hq
    obtain ⟨e', he', hrow'⟩ := (rows_ok hrs).2 q hq'
    obtain ⟨hk', -, -⟩ := row_columns hrow'
    have ho : e'.offset = e.offset := by
      have := congrArg Key.oh hqk
      rw [hk, hk'] at this
      exact Int.ofNat.inj this
    have := offset_inj hd he' he ho
    subst this
    rw [hrow, Except.ok.injEq] at hrow'
    subst hrow'
    unfold build DB.finalize
    rw [← inv.files] at hq
    have hg := foldl_ignore_old (insertAll [rs]).generated (insertAll [rs]).files r.1 r.2
      (Dict.get?_eq_some_of_mem _ (by rw [inv.files]; exact foldl_replace_nodup _ _ List.nodup_nil) hq)
    exact Dict.mem_of_get? _ hg
  have hpl := place_eq hn hp
  have hrp : r.1.path = folderPath ns ∧ r.1.name = n := by rw [hk, hpl]; exact ⟨rfl, rfl⟩
  have hr' := ((entries_exist (build_nodup [rs]) (folderPath ns) n).mem r).mpr ⟨hb, hrp⟩
  obtain ⟨i, hi⟩ := List.getElem?_of_mem hr'
  refine ⟨(i : Int) + 1, toFileInfo r, ?_, hmode, hcol, ?_⟩
  · rw [ht, C15_lookup (build [rs]) (build_nodup _) ns n hn _ (query_canonical _ hn) _ (entries_exist (build_nodup _) _ _), if_pos (by omega)]
    rw [show ((i : Int) + 1 - 1).toNat = i by omega, hi]
    rfl
  · unfold openFile
    have ho : (toFileInfo r).oh = (e.offset : Int) := by simp only [toFileInfo, hk]
    rw [ho, files_get hd he]

/-- C135: if no other entry has the path, the newest version is the entry, unless there are entries below its path. -/
theorem C135_only (o : Opts) (z : List Entry) (ps : List Password) (m : Option Password × Table) (hm : mount o z ps = .ok m)
    (hd : DistinctHeaders z) (e : Entry) (he : e ∈ z) (ns : List Str) (n : Str) (hn : ∀ x ∈ ns ++ [n], IsName x)
    (hp : normpath (o.transform e.filename) = canonical (ns ++ [n]))
    (hu : ∀ e' ∈ z, normpath (o.transform e'.filename) = canonical (ns ++ [n]) → e' = e) (fi : FileInfo)
    (hl : lookup m.2 (canonical (ns ++ [n])) 0 = some fi) (hf : isDir fi.info.mode = false) :
    fi.info.mode = mode e ∧ Columns o m.1 e fi.info.rest ∧ openFile z m.1 fi = read m.1 e := by
  obtain ⟨e', he', h1, h2, h3⟩ := C135_open o z ps m hm hd ns n hn 0 fi hl hf
  have := hu e' he' h1
  subst this
  exact ⟨h2, h3⟩

example : DistinctHeaders mixed ∧ normpath (plainOpts.transform "q".toList) = canonical ([] ++ ["q".toList]) := by
  refine ⟨by unfold DistinctHeaders; decide, by decide⟩

end Verif.Zip
