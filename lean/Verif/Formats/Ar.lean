import Verif.Bytes
import Verif.Py
import Verif.Detect.Signatures

/-!
# AR archives (core/ratarmountcore/mountsource/formats/ar.py:22-196, `_parse_ar_archive`)

Names are bytes; that `_convert_to_row` (233-264) decodes and normalises them is left out (C14 is about the latter).
-/

namespace Verif.Ar

open Verif.Py Verif.Bin Verif.Detect

/-- Digits for `int` (ar.py:40-46). -/
def isDigit (c : UInt8) : Bool := 48 ≤ c.toNat && c.toNat ≤ 57

/-- The number a list of digits stands for (ar.py:40-46). -/
def value (base : Nat) (ds : Data) : Nat := ds.foldl (fun a c => a * base + (c.toNat - 48)) 0

/-- `int(s, base)` for digits only; what Python accepts beyond that (signs, underscores, spaces) is an error here. In
`parse_int` (ar.py:40-57) only digits get so far. -/
def pyInt (base : Nat) (s : Data) : Except PyErr Nat :=
  if s ≠ [] ∧ s.all isDigit ∧ s.all (fun c => c.toNat - 48 < base) then .ok (value base s) else .error .valueError

/-- `parse_int` (ar.py:40-57): digits, then spaces. -/
def parseInt (field : Data) (base default : Nat) : Except PyErr Nat :=
  let ds := field.takeWhile isDigit
  if (field.drop ds.length).all (· == 32) then if ds.isEmpty then .ok default else pyInt base ds
  else .error .valueError

/-- The fields of `tarfile.TarInfo` that are set (ar.py:160-195). -/
structure Entry where
  name : Data
  linkname : Data
  sym : Bool
  offset : Nat
  offsetData : Nat
  size : Int
  mtime : Nat
  uid : Nat
  gid : Nat
  mode : Nat
  deriving DecidableEq, Repr

/-- `long_names`: bytes for thin archives, a list otherwise (ar.py:82). -/
inductive Long where
  | bytes (d : Data)
  | list (l : List Data)
  deriving DecidableEq, Repr

/-- `s.split(b'/\n')` (ar.py:83-96). -/
def splitNames : Data → List Data
  | [] => [[]]
  | [c] => [[c]]
  | c :: c' :: rest =>
    if c = 47 ∧ c' = 10 then [] :: splitNames rest
    else match splitNames (c' :: rest) with
      | [] => [[c]]
      | p :: ps => (c :: p) :: ps

/-- `get_long_file_name` (ar.py:88-99). -/
def longName (long : Option Long) (name : Data) : Data :=
  if [47].isPrefixOf name && (name.drop 1 ≠ [] && (name.drop 1).all isDigit) then
    let index := value 10 (name.drop 1)
    match long with
    | none => name
    | some (.list l) => (l[index]?).getD name
    | some (.bytes d) =>
      if index < d.length then
        match findFrom [47, 10] d index with
        | some e => (d.drop index).take (e - index)
        | none => name
      else name
  else name

/-- `header_parts[0].rstrip(b' \x00')` (ar.py:115). -/
def rstripName (s : Data) : Data := (s.reverse.dropWhile (fun c => c == 32 || c == 0)).reverse

/-- `name.strip(b'\0')` (ar.py:184). -/
def stripZeros (s : Data) : Data := ((s.dropWhile (· == 0)).reverse.dropWhile (· == 0)).reverse

/-- `stat.S_IFREG` (ar.py:226-256). -/
def S_IFREG : Nat := 0o100000
/-- `stat.S_IFLNK` (ar.py:226-256). -/
def S_IFLNK : Nat := 0o120000

/-- The header at `pos` (ar.py:108-140): the name field and the entry without its name. Every `ValueError` becomes a
`RatarmountError`. -/
def parseHeader (thin : Bool) (pos : Nat) (h : Data) : Except PyErr (Data × Entry) :=
  if (h.drop 58).take 2 ≠ [0x60, 0x0A] then .error .ratarmount
  else match parseInt ((h.drop 16).take 12) 10 0, parseInt ((h.drop 28).take 6) 10 0, parseInt ((h.drop 34).take 6) 10 0,
      parseInt ((h.drop 40).take 8) 8 0o660, parseInt ((h.drop 48).take 10) 10 0 with
    | .ok mtime, .ok uid, .ok gid, .ok mode, .ok size =>
      .ok (rstripName (h.take 16),
        ⟨[], [], false, pos, pos + 60, size, mtime, uid, gid, (mode ||| S_IFREG) ||| (if thin then S_IFLNK else 0)⟩)
    | _, _, _, _, _ => .error .ratarmount

/-- The table of long names (ar.py:149-163): the new value of `long_names` and the position. -/
def readTable (thin : Bool) (d : Data) (offset size : Nat) : Option Long × Nat :=
  let table := (d.drop offset).take size
  if thin then (if table = [] then none else some (.bytes table), offset + table.length)
  else
    let l := splitNames table
    if size % 2 = 0 then
      (some (.list (if l.getLast? = some [0x60] ∨ l.getLast? = some [0x0A] then l.dropLast else l)), offset + table.length)
    else (some (.list l), offset + table.length + 1)

/-- The name of a member in BSD style (ar.py:174-185): the name, its length, and what is left of the entry. -/
def bsdName (d : Data) (offset : Nat) (name : Data) (e : Entry) : Except PyErr (Data × Entry) :=
  if [35, 49, 47].isPrefixOf name then
    match pyInt 10 (name.drop 3) with
    | .error err => .error err
    | .ok n =>
      let long := (d.drop offset).take n
      if long.length ≠ n then .error .ratarmount
      else .ok (long, { e with offsetData := e.offsetData + n, size := e.size - n })
  else .ok (name, e)

/-- One turn of the loop (ar.py:103-194) for a header that was read: the next position, the files, the table. -/
def parseMember (thin : Bool) (d : Data) (pos : Nat) (h : Data) (files : List Entry) (long : Option Long) :
    Except PyErr (Nat × List Entry × Option Long) :=
  let offset := pos + 60
  match parseHeader thin pos h with
  | .error e => .error e
  | .ok (name, e) =>
    let size := e.size.toNat
    if name = [47] then .ok (offset + size + size % 2, files, long)                                -- 144-147
    else if name = [47, 47] then                                                                  -- 149-172
      let (long', next) := readTable thin d offset size
      .ok (next, files.map (fun f : Entry =>
        if thin then { f with linkname := longName long' f.name } else { f with name := longName long' f.name }), long')
    else match bsdName d offset name e with
      | .error err => .error err
      | .ok (name, e) =>
        let e := if long.isSome && thin then { e with linkname := longName long name, sym := true } else e     -- 176-181
        let name := if long.isSome && !thin then longName long name else name
        .ok (if thin then offset else offset + size + size % 2, files ++ [{ e with name := stripZeros name }], long)

theorem parseMember_progress {thin : Bool} {d : Data} {pos : Nat} {h : Data} {files files' : List Entry}
    {long long' : Option Long} {next : Nat} (hp : parseMember thin d pos h files long = .ok (next, files', long')) :
    pos + 60 ≤ next := by
  unfold parseMember at hp
  simp only at hp
  split at hp
  · cases hp
  · next name e _ =>
    split at hp
    · injection hp with hp; injection hp with hp _; omega
    · split at hp
      · injection hp with hp
        injection hp with hp _
        rw [← hp]
        unfold readTable
        simp only
        split
        · simp only; omega
        · split <;> simp only <;> omega
      · split at hp
        · cases hp
        · injection hp with hp
          injection hp with hp _
          rw [← hp]
          split <;> omega

/-- The loop (ar.py:103). -/
def parseLoop (thin : Bool) (d : Data) (pos : Nat) (files : List Entry) (long : Option Long) : Except PyErr (List Entry) :=
  let h := (d.drop pos).take 60
  if h = [] then .ok files
  else if _hl : h.length < 60 then .error .ratarmount
  else match _hp : parseMember thin d pos h files long with
    | .error e => .error e
    | .ok (next, files', long') => parseLoop thin d next files' long'
  termination_by d.length - pos
  decreasing_by
    have := parseMember_progress _hp
    simp only [h, List.length_take, List.length_drop] at _hl
    omega

/-- `b'!<arch>\n'` (ar.py:22-38). -/
def archMagic : Data := [0x21, 0x3C, 0x61, 0x72, 0x63, 0x68, 0x3E, 0x0A]
/-- `b'!<thin>\n'` (ar.py:22-38). -/
def thinMagic : Data := [0x21, 0x3C, 0x74, 0x68, 0x69, 0x6E, 0x3E, 0x0A]

/-- `_parse_ar_archive` of a file at its start (ar.py:22-197). -/
def parse (d : Data) : Except PyErr (List Entry) :=
  if d.take 8 ≠ archMagic ∧ d.take 8 ≠ thinMagic then .error .ratarmount
  else parseLoop (d.take 8 = thinMagic) d 8 [] none

/-! ## specification: how an archive is written (https://en.wikipedia.org/wiki/Ar_(Unix), ar(5)) -/

/-- The digits of a number. -/
def digits (base n : Nat) : Data :=
  if _h : base < 2 ∨ n < base then [UInt8.ofNat (48 + n)] else digits base (n / base) ++ [UInt8.ofNat (48 + n % base)]
  termination_by n
  decreasing_by exact Nat.div_lt_self (by omega) (by omega)

/-- A field is filled up with spaces. -/
def field (width : Nat) (s : Data) : Data := s ++ List.replicate (width - s.length) 32

inductive Name where
  /-- In the header. -/
  | short (n : Data)
  /-- In front of the data, as BSD does it. -/
  | bsd (n : Data)
  /-- In the table, at the given byte, as GNU and System V do it. -/
  | ref (offset : Nat)

structure Member where
  name : Name
  mtime : Nat
  uid : Nat
  gid : Nat
  mode : Nat
  data : Data

/-- A header. -/
def header (name : Data) (mtime uid gid mode size : Nat) : Data :=
  field 16 name ++ field 12 (digits 10 mtime) ++ field 6 (digits 10 uid) ++ field 6 (digits 10 gid) ++
    field 8 (digits 8 mode) ++ field 10 (digits 10 size) ++ [0x60, 0x0A]

/-- Data is followed by a newline if its length is odd. -/
def padded (d : Data) : Data := d ++ List.replicate (d.length % 2) 10

def Name.field : Name → Data
  | .short n => n
  | .bsd n => [35, 49, 47] ++ digits 10 n.length
  | .ref o => 47 :: digits 10 o

/-- What stands in front of the data. -/
def Name.front : Name → Data
  | .bsd n => n
  | _ => []

def Member.body (m : Member) : Data := m.name.front ++ m.data

def Member.bytes (m : Member) : Data := header m.name.field m.mtime m.uid m.gid m.mode m.body.length ++ padded m.body

/-- A symbol table. -/
def symbols (content : Data) : Data := header [47] 0 0 0 0 content.length ++ padded content

/-- A table of long names. -/
def table (content : Data) : Data := header [47, 47] 0 0 0 0 content.length ++ padded content

/-- Names that can be written. -/
def Name.Valid : Name → Prop
  | .short n => n.length ≤ 16 ∧ n.head? ≠ some 47 ∧ n.head? ≠ some 0 ∧ n.getLast? ≠ some 0 ∧ n.getLast? ≠ some 32 ∧
      ¬ [35, 49, 47] <+: n
  | .bsd n => (digits 10 n.length).length ≤ 13 ∧ n.head? ≠ some 0 ∧ n.getLast? ≠ some 0
  | .ref o => (digits 10 o).length ≤ 15

/-- The numbers fit into their fields. -/
def Member.Valid (m : Member) : Prop :=
  m.name.Valid ∧ (digits 10 m.mtime).length ≤ 12 ∧ (digits 10 m.uid).length ≤ 6 ∧ (digits 10 m.gid).length ≤ 6 ∧
    (digits 8 m.mode).length ≤ 8 ∧ (digits 10 m.body.length).length ≤ 10

/-- A member or a symbol table. -/
inductive Item where
  | member (m : Member)
  | symbols (content : Data)

def Item.bytes : Item → Data
  | .member m => m.bytes
  | .symbols c => Ar.symbols c

def Item.Valid : Item → Prop
  | .member m => m.Valid
  | .symbols c => (digits 10 c.length).length ≤ 10

def members : List Item → List Member
  | [] => []
  | .member m :: is => m :: members is
  | .symbols _ :: is => members is

/-- What a user sees of an entry: name, attributes, contents. -/
structure Shown where
  name : Data
  mtime : Nat
  uid : Nat
  gid : Nat
  mode : Nat
  data : Data
  deriving DecidableEq, Repr

def Entry.shown (archive : Data) (e : Entry) : Shown :=
  ⟨e.name, e.mtime, e.uid, e.gid, e.mode, (archive.drop e.offsetData).take e.size.toNat⟩

/-! ## proofs: numbers -/

theorem ofNat_digit (k : Nat) (h : k < 10) : (UInt8.ofNat (48 + k)).toNat = 48 + k := by
  simp only [UInt8.toNat_ofNat']; omega

theorem digits_ne_nil (b n : Nat) : digits b n ≠ [] := by
  rw [digits]; split <;> simp

theorem digits_spec (b n : Nat) (hb : 2 ≤ b) (hb' : b ≤ 10) :
    value b (digits b n) = n ∧ (∀ c ∈ digits b n, isDigit c = true ∧ c.toNat - 48 < b) := by
  fun_induction digits b n with
  | case1 n h =>
    have hn : n < b := by omega
    have := ofNat_digit n (by omega)
    constructor
    · simp only [value, List.foldl_cons, List.foldl_nil, this]; omega
    · intro c hc
      simp only [List.mem_singleton] at hc
      subst hc
      simp only [isDigit, this, Bool.and_eq_true, decide_eq_true_eq]
      omega
  | case2 n h ih =>
    have hm : n % b < b := Nat.mod_lt _ (by omega)
    have := ofNat_digit (n % b) (by omega)
    constructor
    · have ih1 := ih.1
      simp only [value] at ih1 ⊢
      rw [List.foldl_append, ih1]
      simp only [List.foldl_cons, List.foldl_nil, this]
      have := Nat.div_add_mod n b
      rw [Nat.mul_comm] at this
      omega
    · intro c hc
      rcases List.mem_append.mp hc with hc | hc
      · exact ih.2 c hc
      · simp only [List.mem_singleton] at hc
        subst hc
        simp only [isDigit, this, Bool.and_eq_true, decide_eq_true_eq]
        omega

theorem pyInt_digits (b n : Nat) (hb : 2 ≤ b) (hb' : b ≤ 10) : pyInt b (digits b n) = .ok n := by
  obtain ⟨h1, h2⟩ := digits_spec b n hb hb'
  unfold pyInt
  rw [if_pos, h1]
  refine ⟨digits_ne_nil b n, ?_, ?_⟩
  · exact List.all_eq_true.mpr fun c hc => (h2 c hc).1
  · exact List.all_eq_true.mpr fun c hc => by simpa using (h2 c hc).2

theorem takeWhile_digits (l r : Data) (h : ∀ c ∈ l, isDigit c = true) (hr : ∀ c, r.head? = some c → isDigit c = false) :
    (l ++ r).takeWhile isDigit = l := by
  induction l with
  | nil =>
    cases r with
    | nil => rfl
    | cons c r => simp [hr c rfl]
  | cons c l ih =>
    rw [List.cons_append, List.takeWhile_cons_of_pos (h c (by simp)), ih (fun x hx => h x (by simp [hx]))]

theorem parseInt_field (b n w default : Nat) (hb : 2 ≤ b) (hb' : b ≤ 10) :
    parseInt (field w (digits b n)) b default = .ok n := by
  obtain ⟨h1, h2⟩ := digits_spec b n hb hb'
  unfold parseInt field
  simp only
  have ht : (digits b n ++ List.replicate (w - (digits b n).length) (32 : UInt8)).takeWhile isDigit = digits b n := by
    apply takeWhile_digits _ _ (fun c hc => (h2 c hc).1)
    intro c hc
    have := List.eq_of_mem_replicate (List.mem_of_mem_head? (Option.mem_def.mpr hc))
    subst this
    decide
  rw [ht, List.drop_left]
  rw [if_pos (by simp), if_neg (by simp [digits_ne_nil]), pyInt_digits b n hb hb']

theorem length_field (w : Nat) (s : Data) (h : s.length ≤ w) : (field w s).length = w := by
  simp [field]; omega

/-! ## proofs: the header -/

theorem slice_mid (a b c : Data) (n m : Nat) (ha : a.length = n) (hb : b.length = m) :
    ((a ++ (b ++ c)).drop n).take m = b := by
  rw [← ha, List.drop_left, ← hb, List.take_left]

theorem rstripName_field (n : Data) (w : Nat) (h0 : n.getLast? ≠ some 0) (h32 : n.getLast? ≠ some 32) :
    rstripName (field w n) = n := by
  unfold rstripName field
  rw [List.reverse_append, List.reverse_replicate]
  have hd : ∀ k, (List.replicate k (32 : UInt8) ++ n.reverse).dropWhile (fun c => c == 32 || c == 0) =
      n.reverse.dropWhile (fun c => c == 32 || c == 0) := by
    intro k
    induction k with
    | zero => rfl
    | succ k ih => rw [List.replicate_succ, List.cons_append, List.dropWhile_cons_of_pos (by simp), ih]
  rw [hd]
  have hn : n.reverse.dropWhile (fun c => c == 32 || c == 0) = n.reverse := by
    cases hr : n.reverse with
    | nil => rfl
    | cons c r =>
      have hl : n.getLast? = some c := by rw [List.getLast?_eq_head?_reverse, hr]; rfl
      rw [List.dropWhile_cons_of_neg]
      simp only [Bool.or_eq_true, beq_iff_eq, not_or]
      exact ⟨fun h => h32 (by rw [hl, h]), fun h => h0 (by rw [hl, h])⟩
  rw [hn, List.reverse_reverse]

theorem length_header (name : Data) (mtime uid gid mode size : Nat) (hn : name.length ≤ 16)
    (h1 : (digits 10 mtime).length ≤ 12) (h2 : (digits 10 uid).length ≤ 6) (h3 : (digits 10 gid).length ≤ 6)
    (h4 : (digits 8 mode).length ≤ 8) (h5 : (digits 10 size).length ≤ 10) :
    (header name mtime uid gid mode size).length = 60 := by
  unfold header
  simp only [List.length_append, length_field _ _ hn, length_field _ _ h1, length_field _ _ h2, length_field _ _ h3,
    length_field _ _ h4, length_field _ _ h5]
  rfl

theorem parseHeader_header (thin : Bool) (pos : Nat) (name : Data) (mtime uid gid mode size : Nat) (hn : name.length ≤ 16)
    (hz : name.getLast? ≠ some 0) (hs : name.getLast? ≠ some 32)
    (h1 : (digits 10 mtime).length ≤ 12) (h2 : (digits 10 uid).length ≤ 6) (h3 : (digits 10 gid).length ≤ 6)
    (h4 : (digits 8 mode).length ≤ 8) (h5 : (digits 10 size).length ≤ 10) :
    parseHeader thin pos (header name mtime uid gid mode size) =
      .ok (name, ⟨[], [], false, pos, pos + 60, size, mtime, uid, gid,
        (mode ||| S_IFREG) ||| (if thin then S_IFLNK else 0)⟩) := by
  have l0 := length_field _ _ hn
  have l1 := length_field _ _ h1
  have l2 := length_field _ _ h2
  have l3 := length_field _ _ h3
  have l4 := length_field _ _ h4
  have l5 := length_field _ _ h5
  have e0 : (header name mtime uid gid mode size).take 16 = field 16 name := by
    unfold header
    simp only [List.append_assoc]
    exact List.take_left' l0
  have e1 : ((header name mtime uid gid mode size).drop 16).take 12 = field 12 (digits 10 mtime) := by
    unfold header
    simp only [List.append_assoc]
    exact slice_mid _ _ _ 16 12 l0 l1
  have e2 : ((header name mtime uid gid mode size).drop 28).take 6 = field 6 (digits 10 uid) := by
    rw [show header name mtime uid gid mode size = (field 16 name ++ field 12 (digits 10 mtime)) ++
      (field 6 (digits 10 uid) ++ (field 6 (digits 10 gid) ++ field 8 (digits 8 mode) ++ field 10 (digits 10 size) ++
        [0x60, 0x0A])) by unfold header; simp only [List.append_assoc]]
    exact slice_mid _ _ _ 28 6 (by rw [List.length_append, l0, l1]) l2
  have e3 : ((header name mtime uid gid mode size).drop 34).take 6 = field 6 (digits 10 gid) := by
    rw [show header name mtime uid gid mode size = (field 16 name ++ field 12 (digits 10 mtime) ++
      field 6 (digits 10 uid)) ++ (field 6 (digits 10 gid) ++ (field 8 (digits 8 mode) ++ field 10 (digits 10 size) ++
        [0x60, 0x0A])) by unfold header; simp only [List.append_assoc]]
    exact slice_mid _ _ _ 34 6 (by simp only [List.length_append, l0, l1, l2]) l3
  have e4 : ((header name mtime uid gid mode size).drop 40).take 8 = field 8 (digits 8 mode) := by
    rw [show header name mtime uid gid mode size = (field 16 name ++ field 12 (digits 10 mtime) ++
      field 6 (digits 10 uid) ++ field 6 (digits 10 gid)) ++ (field 8 (digits 8 mode) ++ (field 10 (digits 10 size) ++
        [0x60, 0x0A])) by unfold header; simp only [List.append_assoc]]
    exact slice_mid _ _ _ 40 8 (by simp only [List.length_append, l0, l1, l2, l3]) l4
  have e5 : ((header name mtime uid gid mode size).drop 48).take 10 = field 10 (digits 10 size) := by
    rw [show header name mtime uid gid mode size = (field 16 name ++ field 12 (digits 10 mtime) ++
      field 6 (digits 10 uid) ++ field 6 (digits 10 gid) ++ field 8 (digits 8 mode)) ++ (field 10 (digits 10 size) ++
        [0x60, 0x0A]) by unfold header; simp only [List.append_assoc]]
    exact slice_mid _ _ _ 48 10 (by simp only [List.length_append, l0, l1, l2, l3, l4]) l5
  have e6 : ((header name mtime uid gid mode size).drop 58).take 2 = [0x60, 0x0A] := by
    rw [show header name mtime uid gid mode size = (field 16 name ++ field 12 (digits 10 mtime) ++
      field 6 (digits 10 uid) ++ field 6 (digits 10 gid) ++ field 8 (digits 8 mode) ++ field 10 (digits 10 size)) ++
        ([0x60, 0x0A] ++ []) by unfold header; simp only [List.append_assoc, List.append_nil]]
    exact slice_mid _ _ _ 58 2 (by simp only [List.length_append, l0, l1, l2, l3, l4, l5]) rfl
  unfold parseHeader
  rw [e0, e1, e2, e3, e4, e5, e6, if_neg (by simp), parseInt_field 10 mtime 12 0 (by decide) (by decide),
    parseInt_field 10 uid 6 0 (by decide) (by decide), parseInt_field 10 gid 6 0 (by decide) (by decide),
    parseInt_field 8 mode 8 _ (by decide) (by decide), parseInt_field 10 size 10 0 (by decide) (by decide),
    rstripName_field name 16 hz hs]

/-! ## proofs: one member -/

/-- The name that a member gets. -/
def Name.text (long : Option Long) : Name → Data
  | .short n => n
  | .bsd n => n
  | .ref o => stripZeros (longName long (47 :: digits 10 o))

/-- Where nothing is taken for a reference to the table by mistake. -/
def Name.Plain (long : Option Long) : Name → Prop
  | .bsd n => long = none ∨ n.head? ≠ some 47
  | _ => True

/-- The entry of a member at a position. -/
def entryOf (long : Option Long) (pos : Nat) (m : Member) : Entry :=
  ⟨m.name.text long, [], false, pos, pos + 60 + m.name.front.length, m.data.length, m.mtime, m.uid, m.gid, m.mode ||| S_IFREG⟩

theorem stripZeros_id (n : Data) (h1 : n.head? ≠ some 0) (h2 : n.getLast? ≠ some 0) : stripZeros n = n := by
  unfold stripZeros
  have e1 : n.dropWhile (· == 0) = n := by
    cases n with
    | nil => rfl
    | cons c n => rw [List.dropWhile_cons_of_neg]; simp only [beq_iff_eq]; intro h; exact h1 (by simp [h])
  rw [e1]
  have e2 : n.reverse.dropWhile (· == 0) = n.reverse := by
    cases hr : n.reverse with
    | nil => rfl
    | cons c r =>
      have hl : n.getLast? = some c := by rw [List.getLast?_eq_head?_reverse, hr]; rfl
      rw [List.dropWhile_cons_of_neg]
      simp only [beq_iff_eq]
      intro h; exact h2 (by rw [hl, h])
  rw [e2, List.reverse_reverse]

theorem longName_plain (long : Option Long) (n : Data) (h : n.head? ≠ some 47) : longName long n = n := by
  unfold longName
  rw [if_neg]
  cases n with
  | nil => simp
  | cons c n =>
    simp only [List.head?_cons, ne_eq, Option.some.injEq] at h
    simp only [List.isPrefixOf, Bool.and_true, Bool.and_eq_true, beq_iff_eq, not_and]
    intro hc
    exact absurd hc.symm h

theorem digits_last (b n : Nat) (hb : 2 ≤ b) (hb' : b ≤ 10) (pre : Data) (c : UInt8) (hc : isDigit c = false) :
    (pre ++ digits b n).getLast? ≠ some c := by
  intro h
  have hne := digits_ne_nil b n
  rw [List.getLast?_append, List.getLast?_eq_some_getLast hne] at h
  have h : (digits b n).getLast? = some c := by rw [List.getLast?_eq_some_getLast hne]; simpa using h
  have := ((digits_spec b n hb hb').2 c (List.mem_of_mem_getLast? (Option.mem_def.mpr h))).1
  rw [hc] at this
  cases this

/-- The field of a valid name. -/
theorem Name.field_ok {n : Name} (h : n.Valid) :
    n.field.length ≤ 16 ∧ n.field.getLast? ≠ some 0 ∧ n.field.getLast? ≠ some 32 ∧ n.field ≠ [47] ∧ n.field ≠ [47, 47] := by
  cases n with
  | short n =>
    obtain ⟨h1, h2, h3, h4, h5, h6⟩ := h
    refine ⟨h1, h4, h5, ?_, ?_⟩ <;> (simp only [Name.field]; intro he; exact h2 (by rw [he]; rfl))
  | bsd n =>
    refine ⟨?_, digits_last 10 _ (by decide) (by decide) _ _ (by decide),
      digits_last 10 _ (by decide) (by decide) _ _ (by decide), ?_, ?_⟩
    · have := h.1
      simp only [Name.field, List.length_append, List.length_cons, List.length_nil]
      omega
    · simp only [Name.field, List.cons_append]; intro he; injection he with he _; exact absurd he (by decide)
    · simp only [Name.field, List.cons_append]; intro he; injection he with he _; exact absurd he (by decide)
  | ref o =>
    refine ⟨?_, digits_last 10 _ (by decide) (by decide) [47] _ (by decide),
      digits_last 10 _ (by decide) (by decide) [47] _ (by decide), ?_, ?_⟩
    · have : (digits 10 o).length ≤ 15 := h
      simp only [Name.field, List.length_cons]
      omega
    · simp only [Name.field]; intro he; injection he with _ he; exact digits_ne_nil _ _ he
    · simp only [Name.field]
      intro he
      injection he with _ he
      have := ((digits_spec 10 o (by decide) (by decide)).2 47 (by rw [he]; simp)).1
      exact absurd this (by decide)

theorem drop_at (a b d : Data) (pos n : Nat) (hd : d.drop pos = a ++ b) (ha : a.length = n) : d.drop (pos + n) = b := by
  rw [← List.drop_drop, hd, ← ha, List.drop_left]

theorem parseMember_member (d : Data) (pos : Nat) (m : Member) (rest : Data) (files : List Entry) (long : Option Long)
    (hv : m.Valid) (hp : m.name.Plain long) (hd : d.drop pos = m.bytes ++ rest) :
    parseMember false d pos ((d.drop pos).take 60) files long =
      .ok (pos + m.bytes.length, files ++ [entryOf long pos m], long) ∧
    (d.drop (pos + 60 + m.name.front.length)).take m.data.length = m.data := by
  obtain ⟨hn, h1, h2, h3, h4, h5⟩ := hv
  obtain ⟨f1, f2, f3, f4, f5⟩ := Name.field_ok hn
  have hlen := length_header m.name.field m.mtime m.uid m.gid m.mode m.body.length f1 h1 h2 h3 h4 h5
  have hd1 : d.drop pos = header m.name.field m.mtime m.uid m.gid m.mode m.body.length ++ (padded m.body ++ rest) := by
    rw [hd]; simp only [Member.bytes, List.append_assoc]
  have hd2 : d.drop (pos + 60) = m.name.front ++ (m.data ++ (List.replicate (m.body.length % 2) 10 ++ rest)) := by
    rw [drop_at _ _ d pos 60 hd1 hlen]
    simp only [padded, Member.body, List.append_assoc]
  have hd3 := drop_at _ _ d (pos + 60) _ hd2 rfl
  refine ⟨?_, by rw [hd3, List.take_left]⟩
  have hh : (d.drop pos).take 60 = header m.name.field m.mtime m.uid m.gid m.mode m.body.length := by
    rw [hd1]; exact List.take_left' hlen
  have hblen : m.bytes.length = 60 + m.body.length + m.body.length % 2 := by
    simp only [Member.bytes, List.length_append, hlen, padded, List.length_replicate]; omega
  unfold parseMember
  rw [hh, parseHeader_header false pos m.name.field m.mtime m.uid m.gid m.mode m.body.length f1 f2 f3 h1 h2 h3 h4 h5]
  simp only [Int.toNat_natCast]
  rw [if_neg f4, if_neg f5]
  have hbsd : ∃ n, bsdName d (pos + 60) m.name.field ⟨[], [], false, pos, pos + 60, m.body.length, m.mtime, m.uid, m.gid,
      (m.mode ||| S_IFREG) ||| (if false = true then S_IFLNK else 0)⟩ = .ok (n, ⟨[], [], false, pos,
        pos + 60 + m.name.front.length, m.data.length, m.mtime, m.uid, m.gid, m.mode ||| S_IFREG⟩) ∧
      stripZeros (if (long.isSome && !false) = true then longName long n else n) = m.name.text long := by
    have hmode : (m.mode ||| S_IFREG) ||| (if false = true then S_IFLNK else 0) = m.mode ||| S_IFREG := by simp
    rw [hmode]
    cases hname : m.name with
    | short n =>
      rw [hname] at hn
      obtain ⟨g1, g2, g3, g4, g5, g6⟩ := hn
      have hb : m.body.length = m.data.length := by simp [Member.body, hname, Name.front]
      refine ⟨n, ?_, ?_⟩
      · unfold bsdName
        rw [if_neg (by intro hx; exact g6 (List.isPrefixOf_iff_prefix.mp hx)), hb]
        rfl
      · rw [longName_plain long n g2, ite_self]
        exact stripZeros_id n g3 g4
    | bsd n =>
      rw [hname] at hn hp hd2
      obtain ⟨g1, g2, g3⟩ := hn
      refine ⟨n, ?_, ?_⟩
      · unfold bsdName
        have hpre : List.isPrefixOf [35, 49, 47] (Name.bsd n).field = true := by
          rw [List.isPrefixOf_iff_prefix]; exact ⟨_, rfl⟩
        have htake : (d.drop (pos + 60)).take n.length = n := by rw [hd2]; exact List.take_left
        rw [if_pos hpre, show (Name.bsd n).field.drop 3 = digits 10 n.length from rfl,
          pyInt_digits 10 n.length (by decide) (by decide)]
        simp only [htake]
        rw [if_neg (fun h => h rfl)]
        have hb : m.body.length = n.length + m.data.length := by simp [Member.body, hname, Name.front]
        rw [hb]
        simp only [Name.front, Except.ok.injEq, Prod.mk.injEq, Entry.mk.injEq, true_and, and_true]
        omega
      · rcases hp with hp | hp
        · rw [hp]
          exact stripZeros_id n g2 g3
        · rw [longName_plain long n hp, ite_self]
          exact stripZeros_id n g2 g3
    | ref o =>
      have hb : m.body.length = m.data.length := by simp [Member.body, hname, Name.front]
      refine ⟨47 :: digits 10 o, ?_, ?_⟩
      · unfold bsdName
        rw [if_neg (by simp [Name.field, List.isPrefixOf]), hb]
        rfl
      · simp only [Name.text]
        cases long with
        | none =>
          simp only [Option.isSome_none, Bool.false_and, Bool.false_eq_true, longName, ite_self]
        | some l => rfl
  obtain ⟨n, hb1, hb2⟩ := hbsd
  rw [hb1]
  simp only [Bool.and_false, Bool.false_eq_true, if_false]
  simp only [entryOf, Except.ok.injEq, Prod.mk.injEq, and_true]
  refine ⟨by rw [hblen]; omega, ?_⟩
  rw [← hb2]

theorem parseMember_symbols {thin : Bool} (d : Data) (pos : Nat) (c rest : Data) (files : List Entry) (long : Option Long)
    (hv : (digits 10 c.length).length ≤ 10) (hd : d.drop pos = symbols c ++ rest) :
    parseMember thin d pos ((d.drop pos).take 60) files long = .ok (pos + (symbols c).length, files, long) := by
  have hz : (digits 10 0).length ≤ 6 := by decide +kernel
  have hz8 : (digits 8 0).length ≤ 8 := by decide +kernel
  have hlen := length_header [47] 0 0 0 0 c.length (by decide) (by omega) hz hz hz8 hv
  have hh : (d.drop pos).take 60 = header [47] 0 0 0 0 c.length := by
    rw [hd]
    simp only [symbols, List.append_assoc]
    exact List.take_left' hlen
  unfold parseMember
  rw [hh, parseHeader_header thin pos [47] 0 0 0 0 c.length (by decide) (by decide) (by decide) (by omega) hz hz hz8 hv]
  simp only [if_true, Int.toNat_natCast]
  have : (symbols c).length = 60 + c.length + c.length % 2 := by
    simp only [symbols, List.length_append, hlen, padded, List.length_replicate]; omega
  rw [this]
  simp only [Except.ok.injEq, Prod.mk.injEq, and_true]
  omega

/-! ## proofs: all of them -/

/-- The entries of the items from a position on. -/
def entries (long : Option Long) : Nat → List Item → List Entry
  | _, [] => []
  | pos, .member m :: is => entryOf long pos m :: entries long (pos + m.bytes.length) is
  | pos, .symbols c :: is => entries long (pos + (Ar.symbols c).length) is

def Item.Plain (long : Option Long) : Item → Prop
  | .member m => m.name.Plain long
  | .symbols _ => True

theorem parseLoop_step {thin : Bool} {d : Data} {pos next : Nat} {files files' : List Entry} {long long' : Option Long}
    (hl : 60 ≤ (d.drop pos).length)
    (h : parseMember thin d pos ((d.drop pos).take 60) files long = .ok (next, files', long')) :
    parseLoop thin d pos files long = parseLoop thin d next files' long' := by
  rw [parseLoop]
  have h60 : ((d.drop pos).take 60).length = 60 := by rw [List.length_take]; omega
  have hne : (d.drop pos).take 60 ≠ [] := by intro hx; rw [hx] at h60; cases h60
  rw [if_neg hne, dif_neg (by omega)]
  split
  · next e he => cases he.symm.trans h
  · next n f l he =>
    have := he.symm.trans h
    injection this with this
    injection this with h1 h2
    injection h2 with h2 h3
    rw [h1, h2, h3]

theorem item_length {i : Item} (hv : i.Valid) : 60 ≤ i.bytes.length := by
  cases i with
  | member m =>
    obtain ⟨hn, h1, h2, h3, h4, h5⟩ := hv
    obtain ⟨f1, -⟩ := Name.field_ok hn
    have hlen := length_header m.name.field m.mtime m.uid m.gid m.mode m.body.length f1 h1 h2 h3 h4 h5
    simp only [Item.bytes, Member.bytes, List.length_append, hlen]
    omega
  | symbols c =>
    have hz : (digits 10 0).length ≤ 6 := by decide +kernel
    have hz8 : (digits 8 0).length ≤ 8 := by decide +kernel
    have hlen := length_header [47] 0 0 0 0 c.length (by decide) (by omega) hz hz hz8 hv
    simp only [Item.bytes, symbols, List.length_append, hlen]
    omega

theorem parseLoop_items (d : Data) (long : Option Long) (items : List Item) : ∀ (pos : Nat) (files : List Entry) (tail : Data),
    (∀ i ∈ items, i.Valid) → (∀ i ∈ items, i.Plain long) →
    d.drop pos = (items.map (fun i : Item => i.bytes)).flatten ++ tail → tail.length < 60 →
    parseLoop false d pos files long = (if tail = [] then .ok (files ++ entries long pos items) else .error .ratarmount) ∧
    (entries long pos items).map (fun e : Entry => (e.shown d)) = (members items).map (fun m : Member =>
      (⟨m.name.text long, m.mtime, m.uid, m.gid, m.mode ||| S_IFREG, m.data⟩ : Shown)) ∧
    (∀ e ∈ entries long pos items, pos ≤ e.offset ∧ e.offset + 60 ≤ e.offsetData) ∧
    (entries long pos items).Pairwise (fun a b : Entry => a.offset < b.offset) := by
  induction items with
  | nil =>
    intro pos files tail _ _ hd ht
    simp only [List.map_nil, List.flatten_nil, List.nil_append] at hd
    refine ⟨?_, rfl, by simp [entries], by simp [entries]⟩
    rw [parseLoop]
    have h1 : (d.drop pos).take 60 = tail := by rw [hd]; exact List.take_of_length_le (by omega)
    by_cases hn : tail = []
    · rw [if_pos (by rw [h1]; exact hn), if_pos hn]
      simp [entries]
    · rw [if_neg (by rw [h1]; exact hn), if_neg hn, dif_pos (by rw [h1]; exact ht)]
  | cons i items ih =>
    intro pos files tail hv hp hd ht
    have hvi := hv i (by simp)
    have hli := item_length hvi
    simp only [List.map_cons, List.flatten_cons, List.append_assoc] at hd
    have hd' := drop_at _ _ d pos _ hd rfl
    have hl : 60 ≤ (d.drop pos).length := by rw [hd, List.length_append]; omega
    cases i with
    | member m =>
      obtain ⟨hm1, hm2⟩ := parseMember_member d pos m _ files long hvi (hp (.member m) (by simp)) hd
      rw [parseLoop_step hl hm1]
      obtain ⟨g1, g2, g3, g4⟩ := ih (pos + m.bytes.length) (files ++ [entryOf long pos m]) tail
        (fun j hj => hv j (by simp [hj])) (fun j hj => hp j (by simp [hj])) hd' ht
      refine ⟨?_, ?_, ?_, ?_⟩
      · rw [g1]
        simp only [entries, List.append_assoc, List.cons_append, List.nil_append]
      · simp only [entries, List.map_cons, members, g2]
        congr 1
        simp only [Entry.shown, entryOf, Int.toNat_natCast, hm2]
      · intro e he
        simp only [entries, List.mem_cons] at he
        rcases he with rfl | he
        · simp only [entryOf]; omega
        · have := g3 e he; omega
      · simp only [entries, List.pairwise_cons]
        refine ⟨?_, g4⟩
        intro e he
        have := (g3 e he).1
        simp only [Item.bytes] at hli
        simp only [entryOf]
        omega
    | symbols c =>
      have hs := parseMember_symbols (thin := false) d pos c _ files long hvi hd
      rw [parseLoop_step hl hs]
      obtain ⟨g1, g2, g3, g4⟩ := ih (pos + (symbols c).length) files tail
        (fun j hj => hv j (by simp [hj])) (fun j hj => hp j (by simp [hj])) hd' ht
      refine ⟨by rw [g1]; rfl, by simp only [entries, members]; exact g2, ?_, g4⟩
      intro e he
      have := g3 e he
      omega

/-! ## C60 -/

/-- An archive. -/
def archive (items : List Item) : Data := [0x21, 0x3C, 0x61, 0x72, 0x63, 0x68, 0x3E, 0x0A] ++ (items.map (fun i : Item => i.bytes)).flatten

/-- Names that do not need a table. -/
def Name.Own : Name → Prop
  | .ref _ => False
  | _ => True

/-- The name itself. -/
def Name.own : Name → Data
  | .short n => n
  | .bsd n => n
  | .ref _ => []

theorem parse_arch (items : List Item) (tail : Data) :
    parse (archive items ++ tail) = parseLoop false (archive items ++ tail) 8 [] none := by
  unfold parse
  have h8 : (archive items ++ tail).take 8 = archMagic := by
    unfold archive
    rw [List.append_assoc]
    exact List.take_left' rfl
  rw [h8, if_neg (by simp)]
  simp [show archMagic ≠ thinMagic by decide]

theorem plain_none (n : Name) : n.Plain none := by
  cases n with
  | bsd n => exact .inl rfl
  | _ => trivial

/-- **C60**: one entry per member, in order, with name, attributes and contents; the headers are different places. -/
theorem C60_members (items : List Item) (hv : ∀ i ∈ items, i.Valid) (hn : ∀ m ∈ members items, m.name.Own) :
    ∃ es, parse (archive items) = .ok es ∧
      es.map (fun e : Entry => (e.shown (archive items))) = (members items).map (fun m : Member =>
        (⟨m.name.own, m.mtime, m.uid, m.gid, m.mode ||| 0o100000, m.data⟩ : Shown)) ∧
      es.Pairwise (fun a b : Entry => a.offset < b.offset) := by
  have hp : ∀ i ∈ items, i.Plain none := by
    intro i _
    cases i with
    | symbols c => trivial
    | member m => exact plain_none m.name
  have h := parse_arch items []
  rw [List.append_nil] at h
  obtain ⟨g1, g2, -, g4⟩ := parseLoop_items (archive items) none items 8 [] [] hv hp (by simp [archive]) (by decide)
  refine ⟨entries none 8 items, ?_, ?_, g4⟩
  · rw [h, g1]; rfl
  · rw [g2]
    apply List.map_congr_left
    intro m hm
    have := hn m hm
    cases hname : m.name with
    | short n => rfl
    | bsd n => rfl
    | ref o => rw [hname] at this; exact absurd this id

/-- **C60**: an archive that ends inside of a header is an error. -/
theorem C60_truncated (items : List Item) (hv : ∀ i ∈ items, i.Valid) (tail : Data) (h0 : tail ≠ []) (ht : tail.length < 60) :
    parse (archive items ++ tail) = .error .ratarmount := by
  have hp : ∀ i ∈ items, i.Plain none := by
    intro i _
    cases i with
    | symbols c => trivial
    | member m => exact plain_none m.name
  rw [parse_arch, (parseLoop_items (archive items ++ tail) none items 8 [] tail hv hp (by simp [archive]) ht).1,
    if_neg h0]

/-- **C60**: a number in a header is digits and spaces, nothing else. -/
theorem C60_numbers (field : Data) (base default n : Nat) (h : parseInt field base default = .ok n) :
    ∃ ds k, field = ds ++ List.replicate k 32 ∧ (∀ c ∈ ds, 48 ≤ c.toNat ∧ c.toNat ≤ 57 ∧ c.toNat - 48 < base) ∧
      n = if ds = [] then default else value base ds := by
  unfold parseInt at h
  simp only at h
  split at h
  · next hs =>
    have hf : field = field.takeWhile isDigit ++ List.replicate (field.drop (field.takeWhile isDigit).length).length 32 := by
      conv => lhs; rw [← List.takeWhile_append_dropWhile (p := isDigit) (l := field)]
      have hd : field.drop (field.takeWhile isDigit).length = field.dropWhile isDigit := by
        conv => lhs; arg 2; rw [← List.takeWhile_append_dropWhile (p := isDigit) (l := field)]
        exact List.drop_left
      congr 1
      rw [hd] at hs ⊢
      exact List.eq_replicate_iff.mpr ⟨rfl, fun c hc => by simpa using List.all_eq_true.mp hs c hc⟩
    refine ⟨_, _, hf, ?_⟩
    split at h
    · next he =>
      injection h with h
      rw [List.isEmpty_iff.mp he]
      exact ⟨by simp, h.symm⟩
    · next he =>
      unfold pyInt at h
      split at h
      · next hp =>
        injection h with h
        refine ⟨fun c hc => ?_, ?_⟩
        · have hd := List.all_eq_true.mp hp.2.1 c hc
          simp only [isDigit, Bool.and_eq_true, decide_eq_true_eq] at hd
          exact ⟨hd.1, hd.2, by simpa using List.all_eq_true.mp hp.2.2 c hc⟩
        rw [if_neg hp.1]
        exact h.symm
      · cases h
  · cases h

example : parseInt [49, 50, 32] 10 0 = .ok 12 ∧ parseInt [49, 50, 33] 10 0 = .error .valueError := by decide

/-- **C60**: other files are an error. -/
theorem C60_magic (d : Data) (h1 : ¬ [0x21, 0x3C, 0x61, 0x72, 0x63, 0x68, 0x3E, 0x0A] <+: d)
    (h2 : ¬ [0x21, 0x3C, 0x74, 0x68, 0x69, 0x6E, 0x3E, 0x0A] <+: d) : parse d = .error .ratarmount := by
  replace h1 : ¬ archMagic <+: d := h1
  replace h2 : ¬ thinMagic <+: d := h2
  unfold parse
  rw [if_pos]
  constructor
  · intro h; exact h1 ⟨d.drop 8, by rw [← h, List.take_append_drop]⟩
  · intro h; exact h2 ⟨d.drop 8, by rw [← h, List.take_append_drop]⟩

/-- A symbol table, a file of odd length and one with a long name and a space. -/
def sample : List Item :=
  [.symbols [1, 2, 3], .member ⟨.short [97, 47], 1700000000, 1000, 100, 0o644, [104, 105, 33]⟩,
    .member ⟨.bsd [98, 32, 99], 0, 0, 0, 0o755, [1]⟩]

example : (∀ i ∈ sample, i.Valid) ∧ (∀ m ∈ members sample, m.name.Own) := by
  refine ⟨?_, ?_⟩
  · intro i hi
    simp only [sample, List.mem_cons, List.not_mem_nil, or_false] at hi
    rcases hi with rfl | rfl | rfl
    · show (digits 10 _).length ≤ 10; decide +kernel
    · show Member.Valid _
      refine ⟨⟨by decide, by decide, by decide, by decide, by decide, by decide⟩, by decide +kernel, by decide +kernel,
        by decide +kernel, by decide +kernel, by decide +kernel⟩
    · show Member.Valid _
      refine ⟨⟨by decide +kernel, by decide, by decide⟩, by decide +kernel, by decide +kernel,
        by decide +kernel, by decide +kernel, by decide +kernel⟩
  · intro m hm
    simp only [sample, members, List.mem_cons, List.not_mem_nil, or_false] at hm
    rcases hm with rfl | rfl <;> trivial

/-! ## C61 -/

/-- The contents of the table for a list of names. -/
def tableOf (names : List Data) : Data := (names.map (fun n : Data => n ++ [47, 10])).flatten

/-- The byte at which a name begins. -/
def offsetIn (names : List Data) (k : Nat) : Nat := (tableOf (names.take k)).length

/-- An archive with a table, which is filled up inside, as GNU does it, or outside. -/
def archiveWith (names : List Data) (inside : Bool) (items : List Item) : Data :=
  [0x21, 0x3C, 0x61, 0x72, 0x63, 0x68, 0x3E, 0x0A] ++ table (tableOf names ++ List.replicate (if inside then (tableOf names).length % 2 else 0) 10) ++
    (items.map (fun i : Item => i.bytes)).flatten

/-- The right name: that of the table, if the member refers to the beginning of one. -/
def Name.Named (names : List Data) : Name → Data → Prop
  | .ref o, n => ∃ k, offsetIn names k = o ∧ names[k]? = some n
  | .short n, n' => n = n'
  | .bsd n, n' => n = n'

/-- **C61**: what is not a slash and digits is not a reference, whatever the table is. -/
theorem C61_other (long : Option Long) (name : Data) (h : name.head? ≠ some 47 ∨ ∃ c ∈ name.drop 1, c.toNat < 48 ∨ 57 < c.toNat) :
    longName long name = name := by
  unfold longName
  rw [if_neg]
  intro hc
  simp only [Bool.and_eq_true] at hc
  obtain ⟨h1, -, h2⟩ := hc
  rcases h with h | ⟨c, hc, h⟩
  · cases name with
    | nil => simp at h1
    | cons a r =>
      rw [List.isPrefixOf_cons_cons, Bool.and_eq_true, beq_iff_eq] at h1
      exact h (by rw [← h1.1]; rfl)
  · have := List.all_eq_true.mp h2 c hc
    simp only [isDigit, Bool.and_eq_true, decide_eq_true_eq] at this
    omega

example : longName (some (.list [[97]])) [47, 48, 97] = [47, 48, 97] := C61_other _ _ (.inr ⟨97, by decide, by decide⟩)

/-- Names for a table. -/
def TableName (n : Data) : Prop := ¬ [47, 10] <:+: n ∧ n.head? ≠ some 0 ∧ n.getLast? ≠ some 0

/-- Names next to a table: what stands in front of the data is not taken for a reference. -/
def Name.NoSlash : Name → Prop
  | .bsd n => n.head? ≠ some 47
  | _ => True

/-- The archives in question. -/
structure WithTable (names : List Data) (items : List Item) : Prop where
  valid : ∀ i ∈ items, i.Valid
  table : ∀ n ∈ names, TableName n
  plain : ∀ m ∈ members items, m.name.NoSlash
  size : (digits 10 ((tableOf names).length + 1)).length ≤ 10 ∧ (digits 10 (tableOf names).length).length ≤ 10
  refs : ∀ m ∈ members items, ∃ n, m.name.Named names n

/-- Each member has the name that begins at the byte it refers to. -/
def C61_statement : Prop :=
  ∀ (names : List Data) (inside : Bool) (items : List Item), WithTable names items →
    ∃ es, parse (archiveWith names inside items) = .ok es ∧ es.length = (members items).length ∧
      ∀ (i : Nat) (m : Member) (e : Entry), (members items)[i]? = some m → es[i]? = some e → m.name.Named names e.name

theorem splitNames_cons (n rest : Data) (h : ¬ [47, 10] <:+: n) :
    splitNames (n ++ 47 :: 10 :: rest) = n :: splitNames rest := by
  induction n with
  | nil => simp [splitNames]
  | cons c n ih =>
    have hn : ¬ [47, 10] <:+: n := fun hx => h (hx.trans (List.infix_cons (List.infix_refl _)))
    have ih := ih hn
    obtain ⟨c', r, hr⟩ : ∃ c' r, n ++ 47 :: 10 :: rest = c' :: r := by
      cases n with
      | nil => exact ⟨_, _, rfl⟩
      | cons a n => exact ⟨_, _, rfl⟩
    rw [List.cons_append, hr, splitNames, if_neg, ← hr, ih]
    rintro ⟨rfl, rfl⟩
    cases n with
    | nil => injection hr with hr _; exact absurd hr (by decide)
    | cons a n =>
      injection hr with hr _
      subst hr
      exact h ⟨[], n, rfl⟩

theorem splitNames_table (names : List Data) (rest : Data) (h : ∀ n ∈ names, ¬ [47, 10] <:+: n) :
    splitNames (tableOf names ++ rest) = names ++ splitNames rest := by
  induction names with
  | nil => rfl
  | cons n names ih =>
    have : tableOf (n :: names) ++ rest = n ++ 47 :: 10 :: (tableOf names ++ rest) := by simp [tableOf]
    rw [this, splitNames_cons n _ (h n (by simp)), ih (fun m hm => h m (by simp [hm]))]
    rfl

/-- The table as it is kept: the names in order, and perhaps something after them. -/
theorem readTable_table (d : Data) (offset : Nat) (names : List Data) (inside : Bool) (rest : Data)
    (h : ∀ n ∈ names, ¬ [47, 10] <:+: n)
    (hd : d.drop offset = padded (tableOf names ++ List.replicate (if inside then (tableOf names).length % 2 else 0) 10) ++ rest) :
    ∃ extra, readTable false d offset
        (tableOf names ++ List.replicate (if inside then (tableOf names).length % 2 else 0) (10 : UInt8)).length =
      (some (.list (names ++ extra)), offset +
        (padded (tableOf names ++ List.replicate (if inside then (tableOf names).length % 2 else 0) 10)).length) := by
  generalize hc : tableOf names ++ List.replicate (if inside then (tableOf names).length % 2 else 0) (10 : UInt8) = c at hd
  have ht : (d.drop offset).take c.length = c := by
    rw [hd]; simp only [padded, List.append_assoc]; exact List.take_left
  unfold readTable
  simp only [ht, Bool.false_eq_true, if_false]
  have hs : splitNames c = names ++ splitNames (List.replicate (if inside then (tableOf names).length % 2 else 0) (10 : UInt8)) := by
    rw [← hc]; exact splitNames_table names _ h
  have hlast : splitNames (List.replicate (if inside then (tableOf names).length % 2 else 0) (10 : UInt8)) = [[]] ∨
      splitNames (List.replicate (if inside then (tableOf names).length % 2 else 0) (10 : UInt8)) = [[10]] := by
    split
    · rcases Nat.mod_two_eq_zero_or_one (tableOf names).length with h | h <;> rw [h]
      · exact .inl rfl
      · exact .inr rfl
    · exact .inl rfl
  rw [hs]
  by_cases he : c.length % 2 = 0
  · rw [if_pos he]
    have hpl : (padded c).length = c.length := by simp [padded, he]
    rw [hpl]
    rcases hlast with hl | hl
    · exact ⟨[[]], by rw [hl, if_neg (by simp)]⟩
    · exact ⟨[], by rw [hl, if_pos (by simp)]; simp⟩
  · rw [if_neg he]
    have hpl : (padded c).length = c.length + 1 := by simp [padded]; omega
    rw [hpl]
    exact ⟨_, rfl⟩

theorem named_own {names : List Data} {n : Name} (long : Option Long) (h : ∀ o, n ≠ .ref o) : n.Named names (n.text long) := by
  cases n with
  | short n => rfl
  | bsd n => rfl
  | ref o => exact absurd rfl (h o)

theorem mem_members {items : List Item} {m : Member} (h : .member m ∈ items) : m ∈ members items := by
  induction items with
  | nil => cases h
  | cons i is ih =>
    cases i with
    | member m' =>
      rcases List.mem_cons.mp h with h | h
      · injection h with h; simp [members, h]
      · simp [members, ih h]
    | symbols c =>
      rcases List.mem_cons.mp h with h | h
      · cases h
      · exact ih h

theorem entries_names (long : Option Long) (items : List Item) (pos : Nat) :
    (entries long pos items).map (fun e : Entry => e.name) = (members items).map (fun m : Member => m.name.text long) := by
  induction items generalizing pos with
  | nil => rfl
  | cons i is ih => cases i <;> simp [entries, members, ih, entryOf]

/-- What an archive with a table gives: the table is indexed by the number, whatever it was meant for. -/
theorem parse_with (names : List Data) (inside : Bool) (items : List Item) (hw : WithTable names items) :
    ∃ extra es, parse (archiveWith names inside items) = .ok es ∧
      es.map (fun e : Entry => e.name) =
        (members items).map (fun m : Member => m.name.text (some (.list (names ++ extra)))) := by
  generalize hc : tableOf names ++ List.replicate (if inside then (tableOf names).length % 2 else 0) (10 : UInt8) = c
  have hcl : (digits 10 c.length).length ≤ 10 := by
    have : c.length = (tableOf names).length ∨ c.length = (tableOf names).length + 1 := by
      rw [← hc, List.length_append, List.length_replicate]
      split <;> omega
    rcases this with h | h <;> rw [h]
    · exact hw.size.2
    · exact hw.size.1
  have hz : (digits 10 0).length ≤ 6 := by decide +kernel
  have hz8 : (digits 8 0).length ≤ 8 := by decide +kernel
  have hlen := length_header [47, 47] 0 0 0 0 c.length (by decide) (by omega) hz hz hz8 hcl
  let d := archiveWith names inside items
  have hdd : d = archMagic ++ table c ++ (items.map (fun i : Item => i.bytes)).flatten := by
    show archiveWith names inside items = _
    unfold archiveWith
    rw [hc]
    rfl
  have hd8 : d.drop 8 = header [47, 47] 0 0 0 0 c.length ++ (padded c ++ (items.map (fun i : Item => i.bytes)).flatten) := by
    rw [hdd]
    simp only [table, List.append_assoc]
    exact List.drop_left' rfl
  have hd68 := drop_at _ _ d 8 60 hd8 hlen
  obtain ⟨extra, hread⟩ := readTable_table d 68 names inside _ (fun n hn => (hw.table n hn).1) (by rw [hc]; exact hd68)
  rw [hc] at hread
  refine ⟨extra, entries (some (.list (names ++ extra))) (68 + (padded c).length) items, ?_, entries_names _ _ _⟩
  have hstep : parseMember false d 8 ((d.drop 8).take 60) [] none =
      .ok (68 + (padded c).length, [], some (.list (names ++ extra))) := by
    have hh : (d.drop 8).take 60 = header [47, 47] 0 0 0 0 c.length := by rw [hd8]; exact List.take_left' hlen
    unfold parseMember
    rw [hh, parseHeader_header false 8 [47, 47] 0 0 0 0 c.length (by decide) (by decide) (by decide) (by omega) hz hz hz8 hcl]
    simp only [Int.toNat_natCast]
    rw [if_neg (by decide), if_pos trivial, hread]
    rfl
  have hp : parse d = parseLoop false d 8 [] none := by
    unfold parse
    have h8 : d.take 8 = archMagic := by
      rw [hdd, List.append_assoc]; exact List.take_left' rfl
    rw [h8, if_neg (by simp)]
    simp [show archMagic ≠ thinMagic by decide]
  show parse d = _
  rw [hp, parseLoop_step (by rw [hd8, List.length_append, hlen]; omega) hstep]
  have hplain : ∀ i ∈ items, i.Plain (some (.list (names ++ extra))) := by
    intro i hi
    cases i with
    | symbols c => trivial
    | member m =>
      have := hw.plain m (mem_members hi)
      show m.name.Plain _
      cases hm : m.name with
      | bsd n => rw [hm] at this; exact .inr this
      | _ => trivial
  have := (parseLoop_items d (some (.list (names ++ extra))) items (68 + (padded c).length) [] [] hw.valid hplain
    (by rw [drop_at _ _ d 68 _ hd68 rfl, List.append_nil]) (by decide)).1
  rw [this, if_pos rfl, List.nil_append]

/-- **C61** as far as it holds: if the members refer to the first name of the table at most. Missing: other names; the code
violates the claim for them. -/
theorem C61_first_partial (names : List Data) (inside : Bool) (items : List Item) (hw : WithTable names items)
    (hfirst : ∀ m ∈ members items, ∀ o, m.name = .ref o → o = 0) :
    ∃ es, parse (archiveWith names inside items) = .ok es ∧ es.length = (members items).length ∧
      ∀ (i : Nat) (m : Member) (e : Entry), (members items)[i]? = some m → es[i]? = some e → m.name.Named names e.name := by
  obtain ⟨extra, es, h1, h2⟩ := parse_with names inside items hw
  refine ⟨es, h1, ?_, ?_⟩
  · have := congrArg List.length h2
    simpa using this
  · intro i m e hm he
    have hmem : m ∈ members items := List.mem_of_getElem? hm
    have hname : e.name = m.name.text (some (.list (names ++ extra))) := by
      have := congrArg (fun l => l[i]?) h2
      simp only [List.getElem?_map, hm, he, Option.map_some, Option.some.injEq] at this
      exact this
    rw [hname]
    cases hn : m.name with
    | short n => rfl
    | bsd n => rfl
    | ref o =>
      have ho := hfirst m hmem o hn
      subst ho
      obtain ⟨n, hnn⟩ := hw.refs m hmem
      rw [hn] at hnn
      obtain ⟨k, hk1, hk2⟩ := hnn
      have hk : k = 0 := by
        cases k with
        | zero => rfl
        | succ k =>
          cases names with
          | nil => simp at hk2
          | cons a as =>
            simp only [offsetIn, List.take_succ_cons, tableOf, List.map_cons, List.flatten_cons, List.length_append,
              List.length_cons] at hk1
            omega
      subst hk
      refine ⟨0, hk1, ?_⟩
      have hl : longName (some (.list (names ++ extra))) (47 :: digits 10 0) = n := by
        have hz : digits 10 0 = [48] := by decide +kernel
        rw [hz]
        have h0 : (names ++ extra)[0]? = some n := by
          rw [List.getElem?_append_left (by
            cases names with
            | nil => simp at hk2
            | cons a as => simp)]
          exact hk2
        show ((names ++ extra)[0]?).getD _ = n
        rw [h0]
        rfl
      have htn := hw.table n (List.mem_of_getElem? hk2)
      show names[0]? = some (stripZeros (longName _ (47 :: digits 10 0)))
      rw [hl, stripZeros_id n htn.2.1 htn.2.2]
      exact hk2

/-- An archive with two long names. -/
def twoNames : List Data := [[97, 98], [99]]
def twoItems : List Item := [.member ⟨.ref 0, 0, 0, 0, 0, [1]⟩, .member ⟨.ref 4, 0, 0, 0, 0, [2, 2]⟩]

theorem twoItems_ok : WithTable twoNames twoItems where
  valid := by
    intro i hi
    simp only [twoItems, List.mem_cons, List.not_mem_nil, or_false] at hi
    rcases hi with rfl | rfl
    · refine ⟨show (digits 10 _).length ≤ 15 by decide +kernel, by decide +kernel, by decide +kernel, by decide +kernel, by decide +kernel,
        by decide +kernel⟩
    · refine ⟨show (digits 10 _).length ≤ 15 by decide +kernel, by decide +kernel, by decide +kernel, by decide +kernel, by decide +kernel,
        by decide +kernel⟩
  table := by
    intro n hn
    simp only [twoNames, List.mem_cons, List.not_mem_nil, or_false] at hn
    rcases hn with rfl | rfl
    · exact ⟨by decide, by decide, by decide⟩
    · exact ⟨by decide, by decide, by decide⟩
  plain := by
    intro m hm
    simp only [twoItems, members, List.mem_cons, List.not_mem_nil, or_false] at hm
    rcases hm with rfl | rfl <;> trivial
  size := by constructor <;> decide +kernel
  refs := by
    intro m hm
    simp only [twoItems, members, List.mem_cons, List.not_mem_nil, or_false] at hm
    rcases hm with rfl | rfl
    · exact ⟨[97, 98], 0, rfl, rfl⟩
    · exact ⟨[99], 1, rfl, rfl⟩

/-- C61 is violated: the second name is at byte 4 but has the number 1; the member is shown as `/4`. -/
theorem C61_violated : ¬ C61_statement := by
  intro h
  obtain ⟨es, h1, -, h2⟩ := h twoNames true twoItems twoItems_ok
  have hp : (parse (archiveWith twoNames true twoItems)).toOption.map (fun l => l.map (fun e : Entry => e.name)) =
      some [[97, 98], [47, 52]] := by decide +kernel
  rw [h1] at hp
  simp only [Except.toOption, Option.map_some, Option.some.injEq] at hp
  have he : es[1]?.map (fun e : Entry => e.name) = some [47, 52] := by
    have := congrArg (fun l => l[1]?) hp
    simpa using this
  cases hes : es[1]? with
  | none => rw [hes] at he; cases he
  | some e =>
    rw [hes] at he
    simp only [Option.map_some, Option.some.injEq] at he
    obtain ⟨k, hk1, hk2⟩ := h2 1 _ e rfl hes
    rw [he] at hk2
    have : [47, 52] ∈ twoNames := List.mem_of_getElem? hk2
    exact absurd this (by decide)

/-- **C61** for thin archives, where names are targets of links: every name is found by its byte. -/
theorem C61_thin (names : List Data) (pad : Data) (k : Nat) (n : Data) (hk : names[k]? = some n)
    (hn : ¬ [47, 10] <:+: n) :
    longName (some (.bytes (tableOf names ++ pad))) (47 :: digits 10 (offsetIn names k)) = n := by
  have hsplit : names = names.take k ++ n :: names.drop (k + 1) := by
    obtain ⟨h1, h2⟩ := List.getElem?_eq_some_iff.mp hk
    rw [← h2, ← List.drop_eq_getElem_cons h1, List.take_append_drop]
  have hd : (tableOf names ++ pad).drop (offsetIn names k) = n ++ 47 :: 10 :: (tableOf (names.drop (k + 1)) ++ pad) := by
    have : tableOf names ++ pad = tableOf (names.take k) ++ (n ++ 47 :: 10 :: (tableOf (names.drop (k + 1)) ++ pad)) := by
      conv => lhs; rw [hsplit]
      simp [tableOf]
    rw [this]
    exact List.drop_left
  obtain ⟨hv, hdig⟩ := digits_spec 10 (offsetIn names k) (by decide) (by decide)
  have hlt : offsetIn names k < (tableOf names ++ pad).length := by
    have := congrArg List.length hd
    simp only [List.length_drop, List.length_append, List.length_cons] at this
    rw [List.length_append]
    omega
  have hfind : findFrom [47, 10] (tableOf names ++ pad) (offsetIn names k) = some (offsetIn names k + n.length) := by
    have here : ((tableOf names ++ pad).drop (offsetIn names k + n.length)).take 2 = [47, 10] := by
      rw [← List.drop_drop, hd, List.drop_left]; rfl
    cases hf : findFrom [47, 10] (tableOf names ++ pad) (offsetIn names k) with
    | none => exact absurd here (findFrom_none (by decide) hf _ (by omega))
    | some i =>
      obtain ⟨g1, g2, g3, g4⟩ := findFrom_some hf
      have hle : i ≤ offsetIn names k + n.length := by
        apply Classical.byContradiction
        intro hlt
        exact g4 _ (by omega) (by omega) here
      congr 1
      apply Classical.byContradiction
      intro hne
      -- An earlier one would be inside of the name or end with its first character.
      have hi : i = offsetIn names k + (i - offsetIn names k) := by omega
      rw [hi, ← List.drop_drop, hd, List.drop_append_of_le_length (by omega)] at g3
      have hne2 : n.drop (i - offsetIn names k) ≠ [] := by
        intro hx
        have := congrArg List.length hx
        simp only [List.length_drop, List.length_nil] at this
        omega
      cases hr : n.drop (i - offsetIn names k) with
      | nil => exact hne2 hr
      | cons a r =>
        rw [hr] at g3
        cases r with
        | nil =>
          simp only [List.length_cons, List.length_nil, List.cons_append, List.nil_append, List.take_succ_cons,
            List.take_zero] at g3
          injection g3 with _ g3
          injection g3 with g3 _
          exact absurd g3 (by decide)
        | cons b r =>
          simp only [List.length_cons, List.length_nil, List.cons_append, List.take_succ_cons, List.take_zero] at g3
          injection g3 with ga g3
          injection g3 with gb _
          subst ga; subst gb
          apply hn
          refine ⟨n.take (i - offsetIn names k), r, ?_⟩
          conv => rhs; rw [← List.take_append_drop (i - offsetIn names k) n, hr]
          simp
  unfold longName
  rw [if_pos]
  · simp only [List.drop_succ_cons, List.drop_zero, hv]
    rw [if_pos hlt, hfind]
    simp only
    rw [hd, show offsetIn names k + n.length - offsetIn names k = n.length by omega]
    exact List.take_left
  · simp only [List.isPrefixOf, List.drop_succ_cons, List.drop_zero, Bool.and_eq_true, beq_self_eq_true,
      List.all_eq_true, ne_eq, decide_eq_true_eq]
    exact ⟨⟨trivial, trivial⟩, digits_ne_nil _ _, fun c hc => (hdig c hc).1⟩

example : longName (some (.bytes (tableOf twoNames))) [47, 52] = [99] := by decide +kernel

/-- **C61** for thin archives whose table comes after members: a member that was read before the table and refers to the
byte of a name gets this name as target, and keeps its own name. -/
theorem C61_thin_late (d h : Data) (pos : Nat) (files : List Entry) (long : Option Long) (e : Entry) (names : List Data)
    (pad : Data) (hh : parseHeader true pos h = .ok ([47, 47], e)) (hne : tableOf names ++ pad ≠ [])
    (ht : (d.drop (pos + 60)).take e.size.toNat = tableOf names ++ pad) :
    ∃ next files' long', parseMember true d pos h files long = .ok (next, files', long') ∧
      next = pos + 60 + (tableOf names ++ pad).length ∧ files'.length = files.length ∧
      ∀ (i : Nat) (f f' : Entry), files[i]? = some f → files'[i]? = some f' → f'.name = f.name ∧
        (∀ k n, names[k]? = some n → ¬ [47, 10] <:+: n → f.name = 47 :: digits 10 (offsetIn names k) → f'.linkname = n) ∧
        (¬ [47] <+: f.name → f'.linkname = f.name) := by
  have hrt : readTable true d (pos + 60) e.size.toNat =
      (some (.bytes (tableOf names ++ pad)), pos + 60 + (tableOf names ++ pad).length) := by
    unfold readTable
    simp only [ht, if_true]
    rw [if_neg hne]
  refine ⟨pos + 60 + (tableOf names ++ pad).length,
    files.map (fun f : Entry => { f with linkname := longName (some (.bytes (tableOf names ++ pad))) f.name }),
    some (.bytes (tableOf names ++ pad)), ?_, rfl, by simp, ?_⟩
  · unfold parseMember
    simp only [hh, hrt]
    rw [if_neg (by decide), if_pos trivial]
    rfl
  · intro i f f' hf hf'
    simp only [List.getElem?_map, hf, Option.map_some, Option.some.injEq] at hf'
    subst hf'
    refine ⟨rfl, ?_, ?_⟩
    · intro k n hk hn hname
      show longName (some (.bytes (tableOf names ++ pad))) f.name = n
      rw [hname]
      exact C61_thin names pad k n hk hn
    · intro hp
      show longName (some (.bytes (tableOf names ++ pad))) f.name = f.name
      unfold longName
      rw [if_neg]
      intro hx
      rw [Bool.and_eq_true] at hx
      exact hp (List.isPrefixOf_iff_prefix.mp hx.1)

/-- A thin archive with a table that comes after a member. -/
example : parseHeader true 68 (header [47, 47] 0 0 0 0 7) = .ok ([47, 47], ⟨[], [], false, 68, 128, 7, 0, 0, 0, 0o120000⟩) ∧
    ((List.replicate 68 0 ++ header [47, 47] 0 0 0 0 7 ++ tableOf twoNames).drop (68 + 60)).take 7 =
      tableOf twoNames ++ [] := ⟨by decide +kernel, by decide +kernel⟩

end Verif.Ar
