import Verif.Index.Rows
import Verif.Formats.Libarchive
import Verif.Bits

/-!
# C165 to C167: archives that are read with libarchive (core/ratarmountcore/mountsource/formats/libarchive.py:51-173, 515-612)

The archive is the list of members that libarchive gives, with the values of its functions for them. Not modelled: the choice of formats
and filters, and an index that is loaded. Reading of contents is modelled in `Verif.Formats.Libarchive`.
-/

namespace Verif.LibarchiveRows

open Verif.Py Verif.Index Verif.Libarchive

/-- What ctypes gives for a name: `str`, or `bytes` if it cannot be decoded (libarchive.py:80-87, 102-117). -/
inductive Text where
  | text (s : Str)
  | raw (b : List UInt8)
  deriving DecidableEq

/-- A member with what the functions of libarchive return for it (libarchive.py:51-132): `none` stands for the null pointer and for a value
that is not set. `readable` is false if reading its data raises. -/
structure Member where
  pathW : Option Str
  path : Option (List UInt8)
  mode : Nat
  symlinkW : Option Str
  symlink : Option (List UInt8)
  hardlinkW : Option Str
  hardlink : Option (List UInt8)
  size : Option Nat
  mtime : Option (Int × Nat)
  ctime : Option (Int × Nat)
  birthtime : Option (Int × Nat)
  readable : Bool
  data : List UInt8
  deriving DecidableEq

/-- The options: `transform` (libarchive.py:142), the decoding of bytes (libarchive.py:86, 115), and the columns of the index that are only
copied: size, time and link target (libarchive.py:155-171). -/
structure Opts where
  transform : Str → Str
  decode : List UInt8 → Option Str
  pack : Nat → Int × Nat → Text → Nat

/-- `with contextlib.suppress(UnicodeError): path = path.decode(self.encoding)` (libarchive.py:85-86, 113-115). -/
def decodeText (o : Opts) (b : List UInt8) : Text :=
  match o.decode b with
  | some s => .text s
  | none => .raw b

/-- The wide name, or the other one if it is missing or empty (libarchive.py:80-87, 104-117). -/
def choose (o : Opts) (wide : Option Str) (bytes : Option (List UInt8)) : Option Text :=
  match wide with
  | some (c :: cs) => some (.text (c :: cs))
  | _ => bytes.map (decodeText o)

/-- `path` (libarchive.py:80-87). -/
def pathOf (o : Opts) (m : Member) : Option Text := choose o m.pathW m.path

/-- `is_symbolic_link` (libarchive.py:92-93, 98-99). The file type is part of the mode. -/
def isSymlink (m : Member) : Bool := m.mode &&& 0xF000 == 0xA000

/-- `is_directory` (libarchive.py:95-96). -/
def isDirectory (m : Member) : Bool := m.mode &&& 0xF000 == 0x4000

/-- `linkname` (libarchive.py:101-117). -/
def linkOf (o : Opts) (m : Member) : Option Text :=
  if isSymlink m then choose o m.symlinkW m.symlink else choose o m.hardlinkW m.hardlink

/-- `if linkname: ... else: linkname = ""` (libarchive.py:132-137). -/
def linkname : Option Text → Option Text
  | some (.text (c :: cs)) => some (.text (c :: cs))
  | some (.raw (c :: cs)) => some (.raw (c :: cs))
  | _ => none

/-- The file type that is shown (libarchive.py:132-137). -/
def typeOf (o : Opts) (m : Member) : Nat :=
  match linkname (linkOf o m) with
  | some _ => 0xA000
  | none => if isDirectory m then 0x4000 else 0x8000

/-- `mode` (libarchive.py:130-137). -/
def modeOf (o : Opts) (m : Member) : Nat := (m.mode &&& 0o777) ||| typeOf o m

/-- `get_time` (libarchive.py:65-78): seconds and nanoseconds. -/
def timeOf (m : Member) : Int × Nat := ((m.mtime.or m.ctime).or m.birthtime).getD (0, 0)

/-- The size, for which the data is read if it is not known (libarchive.py:123-129). -/
def sizeOf_ (m : Member) : Except PyErr Nat :=
  match m.size with
  | some n => .ok n
  | none => if m.readable then .ok m.data.length else .error .compression

/-- `if not path: path = self.path()` (libarchive.py:140-141); `given` is the name of a file that is only compressed. -/
def givenOr (o : Opts) (given : Str) (m : Member) : Option Text :=
  match given with
  | [] => pathOf o m
  | c :: cs => some (.text (c :: cs))

/-- `path, name` (libarchive.py:140-142): bytes and None raise a TypeError. -/
def placeOf (o : Opts) : Option Text → Except PyErr (Str × Str)
  | some (.text p) => .ok (splitPath (normpath (o.transform p)))
  | _ => .error .typeError

/-- `convert_to_row` (libarchive.py:119-173). -/
def row (o : Opts) (given : Str) (index : Nat) (m : Member) : Except PyErr Row :=
  match sizeOf_ m with
  | .error e => .error e
  | .ok size =>
    match placeOf o (givenOr o given m) with
    | .error e => .error e
    | .ok place => .ok (⟨place.1, place.2, index⟩, ⟨0, modeOf o m, false, o.pack size (timeOf m) ((linkname (linkOf o m)).getD (.text []))⟩)

/-- Whether the contents of this member are tried to be read (libarchive.py:574). -/
def probed (o : Opts) (m : Member) : Bool :=
  !isDir (modeOf o m) && (match sizeOf_ m with | .ok (_ + 1) => true | _ => false)

/-- The loop over the members (libarchive.py:553-590): `delegate` says whether an error is raised for encrypted 7z archives, `given` is the
name for the first member. -/
def rowsFrom (o : Opts) (delegate : Bool) : Str → Nat → Bool → List Member → Except PyErr (List Row)
  | _, _, _, [] => .ok []
  | given, i, tried, m :: ms =>
    match row o given i m with
    | .error e => .error e
    | .ok r =>
      if !tried && probed o m && !m.readable && delegate then .error .compression
      else match rowsFrom o delegate [] (i + 1) (tried || probed o m) ms with
        | .error e => .error e
        | .ok rs => .ok (r :: rs)

/-- `if len(fileInfos) > 1000` (libarchive.py:588-593): the calls of `set_file_infos`. -/
def batched (limit : Nat) : List Row → List Row → List (List Row)
  | acc, [] => if acc = [] then [] else [acc]
  | acc, r :: rs => if (acc ++ [r]).length > limit then (acc ++ [r]) :: batched limit [] rs else batched limit (acc ++ [r]) rs

/-- `_create_index` (libarchive.py:548-595). `isTar` is whether libarchive has detected a TAR. -/
def createIndex (o : Opts) (delegate isTar : Bool) (given : Str) (ms : List Member) : Except PyErr Table :=
  match rowsFrom o delegate given 0 false ms with
  | .error e => .error e
  | .ok rs => if ms = [] ∧ isTar then .error .compression else .ok (build (batched 1000 [] rs))

/-- `os.path.basename` (Python library, used at libarchive.py:564). -/
def basename (path : Str) : Str := ((split '/' path).getLast?).getD []

/-- The loop over the suffixes (libarchive.py:565-569). `lower` is the conversion of a character to lower case. -/
def stripSuffix (lower : Char → Char) : List Str → Str → Str
  | [], name => name
  | s :: ss, name =>
    if endsWith (('.' :: s).map lower) (name.map lower) = true ∧ s.length + 1 < name.length then name.take (name.length - (s.length + 1))
    else stripSuffix lower ss name

/-- The name of a file that is only compressed (libarchive.py:559-570). -/
def rawName (lower : Char → Char) (suffixes : List Str) (isRaw : Bool) (archive : Str) : Str :=
  if isRaw && !archive.isEmpty then stripSuffix lower suffixes (basename archive) else []

/-- `open` (libarchive.py:601-612): the member with the index that is the header offset, read with the given size. -/
def openMember (ms : List Member) (chunk : Nat) (fi : FileInfo) (size : Nat) (cache : List (Archive UInt8)) : Except PyErr (LibFile UInt8) :=
  (openFile (ms.map (fun m => m.data)) chunk fi.oh.toNat size cache).1

/-! ## specification -/

/-- Where a member is: its name can be decoded and leads to these names. -/
def At (o : Opts) (m : Member) (ns : List Str) (n : Str) : Prop :=
  (∀ x ∈ ns ++ [n], IsName x) ∧ ∃ p, pathOf o m = some (.text p) ∧ normpath (o.transform p) = canonical (ns ++ [n])

/-- A member whose size is right if it is known, and known if its data cannot be read. -/
def Sound (m : Member) : Prop := (∀ n, m.size = some n → n = m.data.length) ∧ (m.size = none → m.readable = true)

/-- The time of a member: the first that is set. -/
inductive TimeIs (m : Member) : Int × Nat → Prop where
  | modified (t) : m.mtime = some t → TimeIs m t
  | changed (t) : m.mtime = none → m.ctime = some t → TimeIs m t
  | born (t) : m.mtime = none → m.ctime = none → m.birthtime = some t → TimeIs m t
  | unknown : m.mtime = none → m.ctime = none → m.birthtime = none → TimeIs m (0, 0)

/-- The link target of a member: that of a symbolic link, and none for others. -/
def TargetIs (o : Opts) (m : Member) (t : Text) : Prop :=
  (typeBits m.mode = 10 ∧ choose o m.symlinkW m.symlink = some t) ∨ (typeBits m.mode ≠ 10 ∧ t = .text [])

/-- A member is shown by the attributes of a file: type, permissions, size, time and link target. -/
def Shown (o : Opts) (m : Member) (fi : FileInfo) : Prop :=
  typeBits fi.info.mode = typeBits m.mode ∧ fi.info.mode % 512 = m.mode % 512 ∧
    ∃ time target, TimeIs m time ∧ TargetIs o m target ∧ fi.info.rest = o.pack m.data.length time target

/-- C165 as claimed: each member is found under its path in some version with its attributes. -/
def C165_statement : Prop :=
  ∀ (o : Opts) (delegate isTar : Bool) (ms : List Member) (t : Table), (∀ m ∈ ms, Sound m) → createIndex o delegate isTar [] ms = .ok t →
    ∀ (m : Member) (ns : List Str) (n : Str), m ∈ ms → At o m ns n →
      ∃ version fi, lookup t (canonical (ns ++ [n])) version = some fi ∧ Shown o m fi

/-- A member that is a file, a folder or a symbolic link with a target, and no hard link. -/
def Usual (o : Opts) (m : Member) : Prop :=
  (typeBits m.mode = 10 ∧ ∃ t, choose o m.symlinkW m.symlink = some t ∧ t ≠ .text [] ∧ t ≠ .raw []) ∨
    ((typeBits m.mode = 4 ∨ typeBits m.mode = 8) ∧ m.hardlinkW = none ∧ m.hardlink = none)

/-- C166 as claimed: an archive can be mounted if none of its members is encrypted. -/
def C166_statement : Prop :=
  ∀ (o : Opts) (delegate : Bool) (ms : List Member), (∀ m ∈ ms, Sound m ∧ m.readable = true) → ∃ t, createIndex o delegate false [] ms = .ok t

/-! ## rows -/

theorem symlink_iff (m : Member) : isSymlink m = true ↔ typeBits m.mode = 10 := by
  unfold isSymlink
  rw [and_fmt, beq_iff_eq]
  omega

theorem directory_iff (m : Member) : isDirectory m = true ↔ typeBits m.mode = 4 := by
  unfold isDirectory
  rw [and_fmt, beq_iff_eq]
  omega

theorem linkname_some {t : Text} (h1 : t ≠ .text []) (h2 : t ≠ .raw []) : linkname (some t) = some t := by
  cases t with
  | text s => cases s with | nil => exact absurd rfl h1 | cons c cs => rfl
  | raw s => cases s with | nil => exact absurd rfl h2 | cons c cs => rfl

theorem time_is (m : Member) : TimeIs m (timeOf m) := by
  unfold timeOf
  cases h1 : m.mtime with
  | some t => exact .modified t h1
  | none =>
    cases h2 : m.ctime with
    | some t => exact .changed t h1 h2
    | none =>
      cases h3 : m.birthtime with
      | some t => exact .born t h1 h2 h3
      | none => exact .unknown h1 h2 h3

theorem size_sound {m : Member} (h : Sound m) : sizeOf_ m = .ok m.data.length := by
  unfold sizeOf_
  cases hs : m.size with
  | some n => rw [h.1 n hs]
  | none => simp only; rw [if_pos (h.2 hs)]

theorem mode_type (o : Opts) (m : Member) (t : Nat) (ht : t < 16) (h : typeOf o m = t * 4096) : typeBits (modeOf o m) = t ∧ modeOf o m % 512 = m.mode % 512 := by
  have hlt : m.mode &&& 0o777 < 4096 := Nat.lt_of_le_of_lt Nat.and_le_right (by decide)
  unfold modeOf
  rw [h]
  refine ⟨typeBits_or _ _ hlt ht, ?_⟩
  rw [show (0o777 : Nat) = 2 ^ 9 - 1 from rfl, Nat.and_two_pow_sub_one_eq_mod, show (512 : Nat) = 2 ^ 9 from rfl]
  apply Nat.eq_of_testBit_eq
  intro i
  rw [Nat.testBit_mod_two_pow, Nat.testBit_or, Nat.testBit_mod_two_pow]
  by_cases hi : i < 9
  · have : (t * 4096).testBit i = false := by
      rw [show (4096 : Nat) = 2 ^ 12 from rfl, Nat.mul_comm, Nat.testBit_two_pow_mul]
      simp; omega
    rw [this]
    simp [hi]
  · simp [hi]

/-- What is shown for a usual member. -/
theorem usual_shown (o : Opts) (m : Member) (h : Usual o m) (oh : Int) (offset : Int) (g : Bool) :
    Shown o m ⟨oh, ⟨offset, modeOf o m, g, o.pack m.data.length (timeOf m) ((linkname (linkOf o m)).getD (.text []))⟩⟩ := by
  rcases h with ⟨ht, t, hc, h1, h2⟩ | ⟨ht, hw, hb⟩
  · have hl : linkname (linkOf o m) = some t := by
      unfold linkOf
      rw [if_pos ((symlink_iff m).mpr ht), hc, linkname_some h1 h2]
    have hty : typeOf o m = 10 * 4096 := by unfold typeOf; rw [hl]
    obtain ⟨e1, e2⟩ := mode_type o m 10 (by decide) hty
    exact ⟨e1.trans ht.symm, e2, timeOf m, t, time_is m, .inl ⟨ht, hc⟩, by rw [hl]; rfl⟩
  · have hns : isSymlink m = false := by
      cases hx : isSymlink m with
      | false => rfl
      | true => have := (symlink_iff m).mp hx; omega
    have hl : linkname (linkOf o m) = none := by
      unfold linkOf
      rw [hns, if_neg (by simp), hw, hb]
      rfl
    have hty : typeOf o m = typeBits m.mode * 4096 := by
      unfold typeOf
      rw [hl]
      simp only
      rcases ht with ht | ht
      · rw [if_pos ((directory_iff m).mpr ht), ht]
      · rw [if_neg (fun hd => by have := (directory_iff m).mp hd; omega), ht]
    obtain ⟨e1, e2⟩ := mode_type o m _ (by omega) hty
    exact ⟨e1, e2, timeOf m, .text [], time_is m, .inr ⟨by omega, rfl⟩, by rw [hl]; rfl⟩

theorem rowsFrom_get (o : Opts) (delegate : Bool) : ∀ (ms : List Member) (given : Str) (i : Nat) (tried : Bool) (rs : List Row),
    rowsFrom o delegate given i tried ms = .ok rs → rs.length = ms.length ∧
      ∀ j m, ms[j]? = some m → ∃ r, rs[j]? = some r ∧ row o (if j = 0 then given else []) (i + j) m = .ok r := by
  intro ms
  induction ms with
  | nil =>
    intro given i tried rs h
    cases h
    exact ⟨rfl, fun j m hj => by simp at hj⟩
  | cons m ms ih =>
    intro given i tried rs h
    unfold rowsFrom at h
    cases hr : row o given i m with
    | error e => rw [hr] at h; cases h
    | ok r =>
      rw [hr] at h
      simp only at h
      split at h
      · cases h
      · cases hrs : rowsFrom o delegate [] (i + 1) (tried || probed o m) ms with
        | error e => rw [hrs] at h; cases h
        | ok rs' =>
          rw [hrs] at h
          cases h
          obtain ⟨h1, h2⟩ := ih _ _ _ _ hrs
          refine ⟨by rw [List.length_cons, List.length_cons, h1], ?_⟩
          intro j x hj
          cases j with
          | zero =>
            cases hj
            exact ⟨r, rfl, hr⟩
          | succ j =>
            obtain ⟨q, hq, he⟩ := h2 j x hj
            refine ⟨q, hq, ?_⟩
            rw [if_neg (by omega)]
            rw [show (if j = 0 then ([] : Str) else []) = [] by split <;> rfl, show i + 1 + j = i + (j + 1) by omega] at he
            exact he

theorem row_oh {o : Opts} {given : Str} {i : Nat} {m : Member} {r : Row} (h : row o given i m = .ok r) : r.1.oh = i := by
  unfold row at h
  split at h
  · cases h
  · split at h
    · cases h
    · cases h; rfl

/-- The index is the header offset, thus no row replaces another. -/
theorem rowsFrom_last {o : Opts} {delegate : Bool} {ms : List Member} {given : Str} {rs : List Row} (h : rowsFrom o delegate given 0 false ms = .ok rs)
    {j : Nat} {r : Row} (hj : rs[j]? = some r) : LastRow rs r := by
  obtain ⟨hlen, hget⟩ := rowsFrom_get o delegate ms given 0 false rs h
  have hjl : j < rs.length := (List.getElem?_eq_some_iff.mp hj).1
  have hoh : ∀ (k : Nat) (q : Row), rs[k]? = some q → q.1.oh = k := by
    intro k q hq
    have hk : k < ms.length := by rw [← hlen]; exact (List.getElem?_eq_some_iff.mp hq).1
    obtain ⟨q', h1, h2⟩ := hget k ms[k] (List.getElem?_eq_getElem hk)
    rw [hq] at h1
    cases h1
    rw [row_oh h2]
    omega
  refine ⟨rs.take j, rs.drop (j + 1), ?_, ?_⟩
  · have hr : rs[j] = r := (List.getElem?_eq_some_iff.mp hj).2
    rw [← hr, ← List.drop_eq_getElem_cons hjl, List.take_append_drop]
  · intro q hq he
    obtain ⟨k, hk⟩ := List.getElem?_of_mem hq
    rw [List.getElem?_drop] at hk
    have h1 := hoh _ _ hk
    have h2 := hoh _ _ hj
    rw [he, h2] at h1
    omega

theorem batched_flatten (limit : Nat) : ∀ (rs acc : List Row), (batched limit acc rs).flatten = acc ++ rs := by
  intro rs
  induction rs with
  | nil =>
    intro acc
    unfold batched
    split
    · next h => rw [h]; rfl
    · simp
  | cons r rs ih =>
    intro acc
    unfold batched
    split
    · rw [List.flatten_cons, ih]; simp
    · rw [ih]; simp

theorem createIndex_ok {o : Opts} {delegate isTar : Bool} {given : Str} {ms : List Member} {t : Table}
    (h : createIndex o delegate isTar given ms = .ok t) : ∃ rs, rowsFrom o delegate given 0 false ms = .ok rs ∧ t = build (batched 1000 [] rs) := by
  unfold createIndex at h
  split at h
  · cases h
  · next rs hrs =>
    split at h
    · cases h
    · cases h; exact ⟨rs, hrs, rfl⟩

theorem row_at {o : Opts} {i : Nat} {m : Member} {ns : List Str} {n : Str} (hat : At o m ns n) (hs : Sound m) :
    row o [] i m = .ok (⟨folderPath ns, n, i⟩, ⟨0, modeOf o m, false, o.pack m.data.length (timeOf m) ((linkname (linkOf o m)).getD (.text []))⟩) := by
  obtain ⟨hn, p, hp, hc⟩ := hat
  unfold row
  rw [size_sound hs]
  simp only
  rw [show givenOr o [] m = pathOf o m from rfl, hp]
  show (match (Except.ok (splitPath (normpath (o.transform p))) : Except PyErr (Str × Str)) with | Except.error e => Except.error e | Except.ok place => _) = _
  rw [hc, splitPath_canonical hn]

/-- Every member that has a path has its row. -/
theorem found (o : Opts) (delegate isTar : Bool) (ms : List Member) (t : Table) (h : createIndex o delegate isTar [] ms = .ok t) (i : Nat)
    (m : Member) (hi : ms[i]? = some m) (hs : Sound m) (ns : List Str) (n : Str) (hat : At o m ns n) :
    ∃ version, lookup t (canonical (ns ++ [n])) version =
      some ⟨i, ⟨0, modeOf o m, false, o.pack m.data.length (timeOf m) ((linkname (linkOf o m)).getD (.text []))⟩⟩ := by
  obtain ⟨rs, hrs, rfl⟩ := createIndex_ok h
  obtain ⟨-, hget⟩ := rowsFrom_get o delegate ms [] 0 false rs hrs
  obtain ⟨r, hr, he⟩ := hget i m hi
  rw [show (if i = 0 then ([] : Str) else []) = [] by split <;> rfl, Nat.zero_add, row_at hat hs] at he
  cases he
  have hl := rowsFrom_last hrs hr
  rw [← List.nil_append rs, ← batched_flatten 1000 rs []] at hl
  exact mem_lookup (build_nodup _) hat.1 (lastRow_batches hl) rfl rfl

/-- **C165** (partial): each member that is a file, a folder or a symbolic link is found under its path in some version, with its type,
permissions, size, time and link target, however many members there are. Missing: hard links and special files; see `C165_violated` and
`C165_special`. -/
theorem C165_partial (o : Opts) (delegate isTar : Bool) (ms : List Member) (t : Table) (h : createIndex o delegate isTar [] ms = .ok t)
    (m : Member) (ns : List Str) (n : Str) (hm : m ∈ ms) (hs : Sound m) (hat : At o m ns n) (hu : Usual o m) :
    ∃ version fi, lookup t (canonical (ns ++ [n])) version = some fi ∧ Shown o m fi := by
  obtain ⟨i, hi⟩ := List.getElem?_of_mem hm
  obtain ⟨v, hv⟩ := found o delegate isTar ms t h i m hi hs ns n hat
  exact ⟨v, _, hv, usual_shown o m hu _ _ _⟩

/-- **C165** (partial): the newest version is the last member with the path. -/
theorem C165_newest (o : Opts) (delegate isTar : Bool) (ms : List Member) (t : Table) (h : createIndex o delegate isTar [] ms = .ok t)
    (i : Nat) (m : Member) (hi : ms[i]? = some m) (hs : Sound m) (ns : List Str) (n : Str) (hat : At o m ns n) (fi : FileInfo)
    (hf : lookup t (canonical (ns ++ [n])) 0 = some fi) : (i : Int) ≤ fi.oh := by
  obtain ⟨rs, hrs, rfl⟩ := createIndex_ok h
  obtain ⟨-, hget⟩ := rowsFrom_get o delegate ms [] 0 false rs hrs
  obtain ⟨r, hr, he⟩ := hget i m hi
  rw [show (if i = 0 then ([] : Str) else []) = [] by split <;> rfl, Nat.zero_add, row_at hat hs] at he
  have hmem : r ∈ (batched 1000 [] rs).flatten := by rw [batched_flatten]; exact List.mem_of_getElem? hr
  cases he
  obtain ⟨⟨fi', h1, h2⟩, -⟩ := C17_entry_found _ _ hmem ns ⟨rfl, fun x hx => hat.1 x (List.mem_append_left _ hx), .inr (hat.1 n (by simp))⟩
    (hat.1 n (by simp)).1
  rw [hf] at h1
  cases h1
  exact h2

/-- **C165** (partial): opening a file that is not empty shows the contents of its member, for every history that stays inside of it and
whatever other files have been opened before. -/
theorem C165_contents_partial (o : Opts) (delegate isTar : Bool) (ms : List Member) (t : Table) (h : createIndex o delegate isTar [] ms = .ok t)
    (m : Member) (ns : List Str) (n : Str) (hm : m ∈ ms) (hs : Sound m) (hat : At o m ns n) (hne : m.data ≠ [])
    (cacheSize chunk : Nat) (hc : 0 < chunk) (cache : List (Archive UInt8)) (hv : ∀ a ∈ cache, a.Valid (ms.map (fun m => m.data))) :
    ∃ version fi, lookup t (canonical (ns ++ [n])) version = some fi ∧
      ∀ ops : List (List (Archive UInt8) × FileSpec.FileOp), (∀ e ∈ ops, ∀ a ∈ e.1, a.Valid (ms.map (fun m => m.data))) →
        Within (FileSpec.BytesIO.mk m.data 0) (ops.map (·.2)) = true →
        ∃ f, openMember ms chunk fi m.data.length cache = .ok f ∧
          f.run (ms.map (fun m => m.data)) cacheSize chunk fi.oh.toNat m.data.length ops = (FileSpec.BytesIO.mk m.data 0).run (ops.map (·.2)) := by
  obtain ⟨i, hi⟩ := List.getElem?_of_mem hm
  obtain ⟨v, hvl⟩ := found o delegate isTar ms t h i m hi hs ns n hat
  refine ⟨v, _, hvl, ?_⟩
  intro ops hops hw
  have hd : (ms.map (fun m => m.data))[i]? = some m.data := by rw [List.getElem?_map, hi]; rfl
  exact C64_within_partial _ cacheSize chunk i m.data cache ops hc hd hne hv hops hw

/-! ## violations -/

/-- Options for examples: bytes below 128 are characters, the columns are not looked at. -/
def demoOpts : Opts := ⟨id, fun b => if b.all (fun x => decide (x < 128)) then some (b.map (fun x => Char.ofNat x.toNat)) else none, fun n _ _ => n⟩

/-- A file with a path. -/
def demoMember (path : Str) (data : List UInt8) : Member :=
  ⟨some path, none, 0o100644, none, none, none, none, some data.length, some (5, 0), none, none, true, data⟩

/-- `b/x`, a hard link to `a/y`. -/
def demoHardLink : Member := ⟨some "b/x".toList, none, 0o100644, none, none, some "a/y".toList, none, some 0, some (5, 0), none, none, true, []⟩

theorem sound_member (path : Str) (data : List UInt8) : Sound (demoMember path data) := ⟨fun n h => by cases h; rfl, fun h => by cases h⟩

theorem sound_hard : Sound demoHardLink := ⟨fun n h => by cases h; rfl, fun h => by cases h⟩

theorem demo_index : ∃ t, createIndex demoOpts false true [] [demoMember "a/y".toList [7], demoHardLink] = .ok t ∧
    (∀ version fi, lookup t "/b/x".toList version = some fi → typeBits fi.info.mode = 10) := by
  refine ⟨_, rfl, ?_⟩
  intro version fi hl
  obtain ⟨r, hr, rfl, h1, h2⟩ := lookup_mem (build_nodup _) (ns := ["b".toList]) (n := "x".toList) (by unfold IsName; decide) hl
  have : ∀ r ∈ build (batched 1000 [] [(⟨"/a".toList, "y".toList, 0⟩, ⟨0, 0o100644, false, 1⟩), (⟨"/b".toList, "x".toList, 1⟩, ⟨0, 0o120644, false, 0⟩)]),
      r.1.path = "/b".toList → typeBits r.2.mode = 10 := by decide +kernel
  exact this r hr h1

/-- **C165** is violated: a hard link is shown as a symbolic link. -/
theorem C165_violated : ¬ C165_statement := by
  intro h
  obtain ⟨t, ht, hx⟩ := demo_index
  have hat : At demoOpts demoHardLink ["b".toList] "x".toList := ⟨by unfold IsName; decide, "b/x".toList, rfl, by decide +kernel⟩
  obtain ⟨v, fi, hl, hs⟩ := h demoOpts false true _ t (fun m hm => by
    rcases List.mem_cons.mp hm with rfl | hm
    · exact sound_member _ _
    · cases List.mem_singleton.mp hm; exact sound_hard) ht demoHardLink ["b".toList] "x".toList (by simp) hat
  have := hx v fi hl
  rw [hs.1] at this
  exact absurd this (by decide)

/-- **C165**: the target of what is shown for a hard link is the path in the archive, which is not where it leads from its folder. -/
theorem C165_hard_link_target (o : Opts) (m : Member) (p : Str) (hp : p ≠ []) (ht : typeBits m.mode ≠ 10) (hl : m.hardlinkW = some p) :
    linkname (linkOf o m) = some (.text p) ∧ typeBits (modeOf o m) = 10 := by
  have hns : isSymlink m = false := by
    cases hx : isSymlink m with
    | false => rfl
    | true => exact absurd ((symlink_iff m).mp hx) ht
  cases p with
  | nil => exact absurd rfl hp
  | cons c cs =>
    have h1 : linkname (linkOf o m) = some (.text (c :: cs)) := by
      unfold linkOf
      rw [hns, if_neg (by simp), hl]
      rfl
    refine ⟨h1, (mode_type o m 10 (by decide) ?_).1⟩
    unfold typeOf
    rw [h1]

/-- A path that a link leads to, from the folder it is in. -/
def leadsTo (folder : List Str) (target : Str) : Str := normpath (folderPath folder ++ '/' :: target)

/-- **C165** is violated for the targets of hard links in folders: they do not lead to the other member. -/
theorem C165_target_violated : ¬ ∀ (m other : Member) (ns : List Str) (n p : Str), m.hardlinkW = some p → At demoOpts m ns n →
    pathOf demoOpts other = some (.text p) → leadsTo ns p = normpath p := by
  intro h
  have := h demoHardLink (demoMember "a/y".toList [7]) ["b".toList] "x".toList "a/y".toList rfl
    ⟨by unfold IsName; decide, "b/x".toList, rfl, by decide +kernel⟩ rfl
  exact absurd this (by decide +kernel)

/-- **C165**: special files are shown as regular files. -/
theorem C165_special (o : Opts) (m : Member) (h : typeBits m.mode ∉ [4, 8, 10]) (hw : m.hardlinkW = none) (hb : m.hardlink = none) :
    typeBits (modeOf o m) = 8 := by
  simp only [List.mem_cons, List.not_mem_nil, or_false, not_or] at h
  have hns : isSymlink m = false := by
    cases hx : isSymlink m with
    | false => rfl
    | true => exact absurd ((symlink_iff m).mp hx) h.2.2
  refine (mode_type o m 8 (by decide) ?_).1
  unfold typeOf linkOf
  rw [hns, if_neg (by simp), hw, hb]
  show (if isDirectory m then 0x4000 else 0x8000) = _
  rw [if_neg (fun hd => h.1 ((directory_iff m).mp hd))]

example : Usual demoOpts (demoMember "a/y".toList [7]) ∧ At demoOpts (demoMember "a/y".toList [7]) ["a".toList] "y".toList :=
  ⟨.inr ⟨.inr (by decide), rfl, rfl⟩, ⟨by unfold IsName; decide, "a/y".toList, rfl, by decide +kernel⟩⟩

/-! ## C166 -/

theorem row_some (o : Opts) (i : Nat) (m : Member) (hs : Sound m) (p : Str) (hp : pathOf o m = some (.text p)) : ∃ r, row o [] i m = .ok r := by
  unfold row
  rw [size_sound hs]
  simp only
  rw [show givenOr o [] m = pathOf o m from rfl, hp]
  exact ⟨_, rfl⟩

theorem rows_some (o : Opts) (delegate : Bool) : ∀ (ms : List Member) (i : Nat) (tried : Bool),
    (∀ m ∈ ms, Sound m ∧ (delegate = true → m.readable = true) ∧ ∃ p, pathOf o m = some (.text p)) → ∃ rs, rowsFrom o delegate [] i tried ms = .ok rs := by
  intro ms
  induction ms with
  | nil => intro i tried _; exact ⟨[], rfl⟩
  | cons m ms ih =>
    intro i tried h
    obtain ⟨h1, h2, p, hp⟩ := h m (by simp)
    obtain ⟨r, hr⟩ := row_some o i m h1 p hp
    obtain ⟨rs, hrs⟩ := ih (i + 1) (tried || probed o m) (fun x hx => h x (List.mem_cons_of_mem _ hx))
    refine ⟨r :: rs, ?_⟩
    unfold rowsFrom
    rw [hr]
    simp only
    rw [if_neg, hrs]
    intro hc
    simp only [Bool.and_eq_true, Bool.not_eq_true'] at hc
    rw [h2 hc.2] at hc
    exact absurd hc.1.2 (by simp)

/-- **C166** (partial): an archive whose names can all be decoded is mounted, also if its contents are encrypted and it is not left to
another backend. Missing: names that cannot be decoded; see `C166_violated`. -/
theorem C166_mounted_partial (o : Opts) (delegate isTar : Bool) (ms : List Member) (hne : ms ≠ [] ∨ isTar = false)
    (h : ∀ m ∈ ms, Sound m ∧ (delegate = true → m.readable = true) ∧ ∃ p, pathOf o m = some (.text p)) :
    ∃ t, createIndex o delegate isTar [] ms = .ok t := by
  obtain ⟨rs, hrs⟩ := rows_some o delegate ms 0 false h
  refine ⟨build (batched 1000 [] rs), ?_⟩
  unfold createIndex
  rw [hrs]
  simp only
  rw [if_neg]
  rintro ⟨h1, h2⟩
  rcases hne with hne | hne
  · exact hne h1
  · rw [hne] at h2; cases h2

/-- **C166**: one name that is missing or cannot be decoded makes the whole archive fail. -/
theorem C166_name (o : Opts) (delegate isTar : Bool) (ms : List Member) (hs : ∀ m ∈ ms, Sound m) (m : Member) (hm : m ∈ ms)
    (hp : ∀ p, pathOf o m ≠ some (.text p)) : ∀ t, createIndex o delegate isTar [] ms ≠ .ok t := by
  intro t h
  obtain ⟨rs, hrs, -⟩ := createIndex_ok h
  obtain ⟨i, hi⟩ := List.getElem?_of_mem hm
  obtain ⟨r, -, he⟩ := (rowsFrom_get o delegate ms [] 0 false rs hrs).2 i m hi
  rw [show (if i = 0 then ([] : Str) else []) = [] by split <;> rfl] at he
  unfold row at he
  rw [size_sound (hs m hm)] at he
  simp only at he
  rw [show givenOr o [] m = pathOf o m from rfl] at he
  cases hq : pathOf o m with
  | none => rw [hq] at he; cases he
  | some x =>
    cases x with
    | text p => exact hp p hq
    | raw b => rw [hq] at he; cases he

/-- A file whose name is the byte 0xE4. -/
def demoLatin : Member := ⟨none, some [0xE4], 0o100644, none, none, none, none, some 0, some (5, 0), none, none, true, []⟩

/-- **C166** is violated: a file with a name that is not UTF-8 makes the archive fail. -/
theorem C166_violated : ¬ C166_statement := by
  intro h
  have hs : Sound demoLatin := ⟨fun n h => by cases h; rfl, fun h => by cases h⟩
  obtain ⟨t, ht⟩ := h demoOpts false [demoLatin] (fun m hm => by cases List.mem_singleton.mp hm; exact ⟨hs, rfl⟩)
  refine C166_name demoOpts false false [demoLatin] (fun m hm => by cases List.mem_singleton.mp hm; exact hs) demoLatin (by simp) ?_ t ht
  intro p hp
  have : pathOf demoOpts demoLatin = some (.raw [0xE4]) := by decide
  rw [this] at hp
  cases hp

/-- **C166**: a TAR without any member is refused. -/
theorem C166_empty (o : Opts) (delegate : Bool) (given : Str) : createIndex o delegate true given [] = .error .compression ∧
    createIndex o delegate false given [] = .ok [] := ⟨rfl, rfl⟩

/-- **C166**: the contents of the first file that is not empty decide whether an encrypted 7z archive is left to another backend. -/
theorem C166_delegate (o : Opts) (isTar : Bool) (m : Member) (ms : List Member) (hs : Sound m) (p : Str) (hp : pathOf o m = some (.text p))
    (hd : isDir (modeOf o m) = false) (hne : m.data ≠ []) (hr : m.readable = false) : createIndex o true isTar [] (m :: ms) = .error .compression := by
  obtain ⟨r, hrow⟩ := row_some o 0 m hs p hp
  have hpr : probed o m = true := by
    unfold probed
    rw [hd, size_sound hs]
    cases hdata : m.data with
    | nil => exact absurd hdata hne
    | cons x xs => rfl
  unfold createIndex rowsFrom
  rw [hrow]
  simp only
  rw [hpr, hr, if_pos (by rfl)]

/-! ## C167 -/

theorem endsWith_iff {suf s : Str} : endsWith suf s = true ↔ ∃ t, s = t ++ suf := by
  unfold endsWith
  rw [List.isSuffixOf_iff_suffix]
  constructor
  · rintro ⟨t, h⟩; exact ⟨t, h.symm⟩
  · rintro ⟨t, h⟩; exact ⟨t, h.symm⟩

/-- Texts after the last dot are equal. -/
theorem after_last_dot {a b c d : Str} (h : a ++ '.' :: b = c ++ '.' :: d) (hb : '.' ∉ b) (hd : '.' ∉ d) : a = c ∧ b = d := by
  have h1 := rsplit1_append (c := '.') a b hb
  rw [h, rsplit1_append c d hd] at h1
  injection h1 with h1
  injection h1 with h1 h2
  exact ⟨h1.symm, h2.symm⟩

theorem basename_append (folder name : Str) (h : '/' ∉ name) : basename (folder ++ '/' :: name) = name := by
  unfold basename
  have : ∀ (folder : Str), (split '/' (folder ++ '/' :: name)).getLast? = some name := by
    intro folder
    rw [← join_split '/' folder]

    have hj : join '/' (split '/' folder ++ [name]) = join '/' (split '/' folder) ++ '/' :: name := by
      have hne := split_ne_nil '/' folder
      revert hne
      generalize split '/' folder = l
      intro hne
      induction l with
      | nil => exact absurd rfl hne
      | cons x xs ih =>
        cases xs with
        | nil => rfl
        | cons y ys =>
          show x ++ '/' :: join '/' ((y :: ys) ++ [name]) = _
          rw [ih (by simp)]
          show _ = (x ++ '/' :: join '/' (y :: ys)) ++ '/' :: name
          simp
    rw [← hj, split_join '/' _ (by simp)]
    · simp
    · intro x hx
      rcases List.mem_append.mp hx with hx | hx
      · exact not_mem_of_mem_split '/' folder x hx
      · cases List.mem_singleton.mp hx; exact h
  rw [this]
  rfl

theorem strip_match (lower : Char → Char) (hl : ∀ c, lower c = '.' ↔ c = '.') (name ext : Str) (hne : name ≠ []) (hx : '.' ∉ ext) :
    ∀ suffixes : List Str, (∀ s ∈ suffixes, '.' ∉ s) → (∃ s ∈ suffixes, s.map lower = ext.map lower) →
      stripSuffix lower suffixes (name ++ '.' :: ext) = name := by
  intro suffixes
  induction suffixes with
  | nil => rintro - ⟨s, hs, -⟩; cases hs
  | cons s ss ih =>
    intro hdots hm
    have hmapdot : ∀ t : Str, '.' ∉ t → '.' ∉ t.map lower := by
      intro t ht hmem
      obtain ⟨c, hc, he⟩ := List.mem_map.mp hmem
      exact ht ((hl c).mp he ▸ hc)
    have hdot : lower '.' = '.' := (hl '.').mpr rfl
    unfold stripSuffix
    by_cases he : s.map lower = ext.map lower
    · have hlen : s.length = ext.length := by have := congrArg List.length he; simpa using this
      rw [if_pos]
      · rw [hlen, List.take_left' (by simp)]
      · refine ⟨endsWith_iff.mpr ⟨name.map lower, ?_⟩, ?_⟩
        · rw [List.map_append, List.map_cons, List.map_cons, he]
        · have := List.length_pos_iff.mpr hne
          simp only [List.length_append, List.length_cons]
          omega
    · rw [if_neg]
      · refine ih (fun t ht => hdots t (List.mem_cons_of_mem _ ht)) ?_
        obtain ⟨t, ht, hte⟩ := hm
        rcases List.mem_cons.mp ht with rfl | ht
        · exact absurd hte he
        · exact ⟨t, ht, hte⟩
      · rintro ⟨h1, -⟩
        obtain ⟨t, ht⟩ := endsWith_iff.mp h1
        rw [List.map_append, List.map_cons, List.map_cons, hdot] at ht
        exact he (after_last_dot ht (hmapdot _ hx) (hmapdot _ (hdots s (by simp)))).2.symm

theorem strip_none (lower : Char → Char) (hl : ∀ c, lower c = '.' ↔ c = '.') (name ext : Str) (hx : '.' ∉ ext) :
    ∀ suffixes : List Str, (∀ s ∈ suffixes, '.' ∉ s ∧ s.map lower ≠ ext.map lower) →
      stripSuffix lower suffixes (name ++ '.' :: ext) = name ++ '.' :: ext := by
  intro suffixes
  induction suffixes with
  | nil => intro _; rfl
  | cons s ss ih =>
    intro hs
    have hmapdot : ∀ t : Str, '.' ∉ t → '.' ∉ t.map lower := by
      intro t ht hmem
      obtain ⟨c, hc, he⟩ := List.mem_map.mp hmem
      exact ht ((hl c).mp he ▸ hc)
    unfold stripSuffix
    rw [if_neg]
    · exact ih (fun t ht => hs t (List.mem_cons_of_mem _ ht))
    · rintro ⟨h1, -⟩
      obtain ⟨t, ht⟩ := endsWith_iff.mp h1
      rw [List.map_append, List.map_cons, List.map_cons, (hl '.').mpr rfl] at ht
      exact (hs s (by simp)).2 (after_last_dot ht (hmapdot _ hx) (hmapdot _ (hs s (by simp)).1)).2.symm

/-- **C167**: a file that is only compressed is shown under its name without the suffix of the compression, in upper or lower case, and with
it if the suffix is unknown. -/
theorem C167_name (lower : Char → Char) (hl : ∀ c, lower c = '.' ↔ c = '.') (suffixes : List Str) (hs : ∀ s ∈ suffixes, '.' ∉ s)
    (folder name ext : Str) (hne : name ≠ []) (hx : '.' ∉ ext) (hn : '/' ∉ name ++ '.' :: ext) :
    ((∃ s ∈ suffixes, s.map lower = ext.map lower) → rawName lower suffixes true (folder ++ '/' :: (name ++ '.' :: ext)) = name) ∧
    ((∀ s ∈ suffixes, s.map lower ≠ ext.map lower) → rawName lower suffixes true (folder ++ '/' :: (name ++ '.' :: ext)) = name ++ '.' :: ext) := by
  have he : (folder ++ '/' :: (name ++ '.' :: ext)).isEmpty = false := by cases folder <;> rfl
  unfold rawName
  rw [he, basename_append folder _ hn]
  exact ⟨fun h => strip_match lower hl name ext hne hx suffixes hs h,
    fun h => strip_none lower hl name ext hx suffixes (fun s hm => ⟨hs s hm, h s hm⟩)⟩

/-- **C167**: the file is found under this name, with its decompressed size and contents as the only member. -/
theorem C167_found (o : Opts) (delegate isTar : Bool) (m : Member) (given : Str) (t : Table) (hg : given ≠ []) (hs : Sound m)
    (n : Str) (hn : IsName n) (hp : normpath (o.transform given) = canonical [n]) (h : createIndex o delegate isTar given [m] = .ok t) :
    ∃ version, lookup t (canonical [n]) version =
      some ⟨0, ⟨0, modeOf o m, false, o.pack m.data.length (timeOf m) ((linkname (linkOf o m)).getD (.text []))⟩⟩ := by
  obtain ⟨rs, hrs, rfl⟩ := createIndex_ok h
  obtain ⟨r, hr, he⟩ := (rowsFrom_get o delegate [m] given 0 false rs hrs).2 0 m rfl
  rw [if_pos rfl] at he
  cases given with
  | nil => exact absurd rfl hg
  | cons c cs =>
    unfold row at he
    rw [size_sound hs] at he
    replace he : (match (Except.ok (splitPath (normpath (o.transform (c :: cs)))) : Except PyErr (Str × Str)) with
      | Except.error e => Except.error e
      | Except.ok place => Except.ok ((⟨place.1, place.2, (0 : Nat)⟩ : Key), (⟨0, modeOf o m, false,
          o.pack m.data.length (timeOf m) ((linkname (linkOf o m)).getD (.text []))⟩ : Info))) = Except.ok r := he
    rw [hp] at he
    have hc := splitPath_canonical (ns := []) (n := n) (by intro x hx; cases List.mem_singleton.mp hx; exact hn)
    rw [List.nil_append] at hc
    rw [hc] at he
    cases he
    have hl := rowsFrom_last hrs hr
    rw [← List.nil_append rs, ← batched_flatten 1000 rs []] at hl
    have := mem_lookup (build_nodup _) (ns := []) (n := n) (by intro x hx; cases List.mem_singleton.mp hx; exact hn) (lastRow_batches hl) rfl rfl
    exact this

example : rawName Char.toLower ["gz".toList, "bz2".toList] true "/a/b.tar.GZ".toList = "b.tar".toList ∧
    rawName Char.toLower ["gz".toList, "bz2".toList] true "/a/.gz".toList = ".gz".toList ∧
    rawName Char.toLower ["gz".toList, "bz2".toList] false "/a/b.gz".toList = [] := by decide +kernel

end Verif.LibarchiveRows
