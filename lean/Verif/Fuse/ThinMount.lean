import Verif.Fuse.ArMount
import Verif.PyNum

/-!
# C199: what a mounted thin AR archive shows

A thin archive (`ar rcT`) has no data, only the paths of its files, which stand in the table of long names (ar.py:149-163, 176-181). The code
is that of `Verif.Formats.Ar` and `Verif.Fuse.ArMount`; here it is put together for thin archives.
-/

namespace Verif.Fuse.ThinMount

open Verif.Py Verif.Index Verif.Fuse.IndexMount Verif.Fuse.ArMount
open Verif.Tar (Bytes)
open Verif.Fuse.TarMount (Call start place mread mreaddir mlookup)
open Verif.Tar.Header (encodeStr)
open Verif.Compose (dotVersions)

/-! ## specification: how a thin archive is written -/

/-- A file a thin archive refers to: its path, which is number `entry` of the table, its attributes and its contents, which are not
in the archive. -/
structure Thin where
  path : Str
  entry : Nat
  mtime : Nat
  uid : Nat
  gid : Nat
  perm : Nat
  data : Bytes
  deriving DecidableEq, Repr

/-- The table, filled up to an even length. -/
def tableBytes (paths : List Str) : Bytes :=
  Ar.tableOf (paths.map encodeStr) ++ List.replicate ((Ar.tableOf (paths.map encodeStr)).length % 2) 10

/-- Where the path of a file begins in the table. -/
def at_ (paths : List Str) (t : Thin) : Nat := Ar.offsetIn (paths.map encodeStr) t.entry

/-- A member is a header that refers to the table. -/
def memberBytes (paths : List Str) (t : Thin) : Bytes :=
  Ar.header (47 :: Ar.digits 10 (at_ paths t)) t.mtime t.uid t.gid t.perm t.data.length

/-- The table of symbols, if there is one. -/
def symbolBytes : Option Bytes → Bytes
  | none => []
  | some c => Ar.symbols c

/-- The bytes of the archive: `!<thin>`, symbols, table, headers. -/
def bytesOf (symbols : Option Bytes) (paths : List Str) (ts : List Thin) : Bytes :=
  [0x21, 0x3C, 0x74, 0x68, 0x69, 0x6E, 0x3E, 0x0A] ++ symbolBytes symbols ++ Ar.table (tableBytes paths) ++ (ts.map (memberBytes paths)).flatten

/-- A file can be written. -/
structure Thin.Ok (paths : List Str) (t : Thin) : Prop where
  entry : paths[t.entry]? = some t.path
  offset : (Ar.digits 10 (at_ paths t)).length ≤ 15
  mtime : (Ar.digits 10 t.mtime).length ≤ 12
  uid : (Ar.digits 10 t.uid).length ≤ 6
  gid : (Ar.digits 10 t.gid).length ≤ 6
  mode : (Ar.digits 8 t.perm).length ≤ 8
  size : (Ar.digits 10 t.data.length).length ≤ 10
  perm : t.perm < 4096

/-- An archive can be written. -/
structure Ok (symbols : Option Bytes) (paths : List Str) (ts : List Thin) : Prop where
  nonempty : paths ≠ []
  ends : ∀ p ∈ paths, ¬ [47, 10] <:+: encodeStr p
  table : (Ar.digits 10 (tableBytes paths).length).length ≤ 10
  index : ∀ c, symbols = some c → (Ar.digits 10 c.length).length ≤ 10
  files : ∀ t ∈ ts, t.Ok paths

/-! ## lemmas -/

theorem encode_digit (d : Nat) (h : d < 10) : encodeStr [digitChar d] = [UInt8.ofNat (48 + d)] := by
  have : ∀ d : Fin 10, encodeStr [digitChar d.val] = [UInt8.ofNat (48 + d.val)] := by decide +kernel
  exact this ⟨d, h⟩

theorem encode_natStr (n : Nat) : encodeStr (natStr n) = Ar.digits 10 n := by
  fun_induction natStr n with
  | case1 n h =>
    rw [Ar.digits, dif_pos (.inr h)]
    exact encode_digit n h
  | case2 n h ih =>
    rw [Ar.digits, dif_neg (by omega), encode_append, ih, encode_digit _ (Nat.mod_lt _ (by decide))]

theorem isName_natStr (n : Nat) : IsName (natStr n) := by
  refine ⟨natStr_ne_nil n, natStr_no_slash n, ?_, ?_⟩
  · intro h
    have := natStr_digits n '.' (by rw [h]; simp)
    exact absurd this.1 (by decide)
  · intro h
    have := natStr_digits n '.' (by rw [h]; simp)
    exact absurd this.1 (by decide)

theorem place_number (n : Nat) : place ('/' :: natStr n) = [natStr n] :=
  split_canonical [natStr n] (by intro x hx; rw [List.mem_singleton.mp hx]; exact isName_natStr n)

theorem tableOf_split (l : List Bytes) (k : Nat) (n : Bytes) (h : l[k]? = some n) :
    ∃ rest, Ar.tableOf l = Ar.tableOf (l.take k) ++ (n ++ 47 :: 10 :: rest) := by
  refine ⟨Ar.tableOf (l.drop (k + 1)), ?_⟩
  obtain ⟨hk, he⟩ := List.getElem?_eq_some_iff.mp h
  have hl : l = l.take k ++ n :: l.drop (k + 1) := by
    rw [← he, List.getElem_cons_drop, List.take_append_drop]
  conv => lhs; rw [hl]
  unfold Ar.tableOf
  rw [List.map_append, List.flatten_append, List.map_cons, List.flatten_cons]
  simp

/-- `find` gives the end of the name. -/
theorem find_end (a n rest : Bytes) (h : ¬ [47, 10] <:+: n) :
    Detect.findFrom [47, 10] (a ++ (n ++ 47 :: 10 :: rest)) a.length = some (a.length + n.length) := by
  have hat : ((a ++ (n ++ 47 :: 10 :: rest)).drop (a.length + n.length)).take 2 = [47, 10] := by
    rw [← List.append_assoc, ← List.length_append, List.drop_left]
    rfl
  cases hf : Detect.findFrom [47, 10] (a ++ (n ++ 47 :: 10 :: rest)) a.length with
  | none => exact absurd hat (Detect.findFrom_none (by decide) hf (a.length + n.length) (by omega))
  | some i =>
    obtain ⟨h1, -, h3, h4⟩ := Detect.findFrom_some hf
    have h5 : ¬ a.length + n.length < i := fun hc => h4 (a.length + n.length) (by omega) hc hat
    congr 1
    apply Classical.byContradiction
    intro hne
    obtain ⟨j, rfl⟩ : ∃ j, i = a.length + j := ⟨i - a.length, by omega⟩
    have hj : j < n.length := by omega
    rw [← List.drop_drop, List.drop_left, List.drop_append_of_le_length (by omega)] at h3
    by_cases hlast : j + 1 = n.length
    · have hd : (n.drop j).length = 1 := by rw [List.length_drop]; omega
      obtain ⟨c, hc⟩ := List.length_eq_one_iff.mp hd
      rw [hc] at h3
      have : [c, 47] = [(47 : UInt8), 10] := h3
      injection this with _ h6
      injection h6 with h6
      exact absurd h6 (by decide)
    · have hd : 2 ≤ (n.drop j).length := by rw [List.length_drop]; omega
      have h6 : (n.drop j).take 2 = [47, 10] := by
        have h7 : ((n.drop j) ++ 47 :: 10 :: rest).take 2 = (n.drop j).take 2 := List.take_append_of_le_length hd
        rw [← h7]
        exact h3
      exact h ((h6 ▸ (List.take_prefix 2 (n.drop j)).isInfix).trans (List.drop_suffix j n).isInfix)

theorem longName_ref (paths : List Str) (hp : ∀ p ∈ paths, ¬ [47, 10] <:+: encodeStr p) {t : Thin} (ht : t.Ok paths) :
    Ar.longName (some (.bytes (tableBytes paths))) (47 :: Ar.digits 10 (at_ paths t)) = encodeStr t.path := by
  have he : (paths.map encodeStr)[t.entry]? = some (encodeStr t.path) := by rw [List.getElem?_map, ht.entry]; rfl
  obtain ⟨rest, hr⟩ := tableOf_split _ _ _ he
  have hb : tableBytes paths = Ar.tableOf ((paths.map encodeStr).take t.entry) ++ (encodeStr t.path ++ 47 :: 10 ::
      (rest ++ List.replicate ((Ar.tableOf (paths.map encodeStr)).length % 2) 10)) := by
    unfold tableBytes
    rw [hr]
    simp only [List.append_assoc, List.cons_append]
  have hlen : at_ paths t = (Ar.tableOf ((paths.map encodeStr).take t.entry)).length := rfl
  have hd := Ar.digits_spec 10 (at_ paths t) (by decide) (by decide)
  unfold Ar.longName
  rw [if_pos (by
    simp only [List.drop_succ_cons, List.drop_zero, Bool.and_eq_true, decide_eq_true_eq]
    exact ⟨by simp [List.isPrefixOf], Ar.digits_ne_nil _ _, List.all_eq_true.mpr (fun c hc => (hd.2 c hc).1)⟩)]
  simp only [List.drop_succ_cons, List.drop_zero, hd.1]
  have hn := hp t.path (List.mem_of_getElem? ht.entry)
  rw [if_pos (by rw [hb, hlen, List.length_append, List.length_append, List.length_cons]; omega), hb, hlen, find_end _ _ _ hn]
  simp only [List.drop_left]
  rw [Nat.add_sub_cancel_left]
  exact List.take_left

/-- The entry of a file whose header is at `pos`. -/
def entryOf (paths : List Str) (pos : Nat) (t : Thin) : Ar.Entry :=
  ⟨47 :: Ar.digits 10 (at_ paths t), encodeStr t.path, true, pos, pos + 60, t.data.length, t.mtime, t.uid, t.gid, t.perm ||| 0o120000⟩

theorem or_types (n : Nat) : n ||| 0o100000 ||| 0o120000 = n ||| 0o120000 := by
  rw [Nat.or_assoc]
  rfl

theorem digits_not (n : Nat) (c : UInt8) (hc : c.toNat < 48) : ∀ l, Ar.digits 10 n ≠ l ++ [c] := by
  intro l h
  have := ((Ar.digits_spec 10 n (by decide) (by decide)).2 c (by rw [h]; simp)).1
  simp only [Ar.isDigit, Bool.and_eq_true, decide_eq_true_eq] at this
  omega

theorem last_digit (n : Nat) (c : UInt8) (hc : c.toNat < 48) : (47 :: Ar.digits 10 n).getLast? ≠ some c := by
  intro h
  rcases List.eq_nil_or_concat (Ar.digits 10 n) with h0 | ⟨l, x, hx⟩
  · exact Ar.digits_ne_nil _ _ h0
  · rw [List.concat_eq_append] at hx
    rw [hx, ← List.cons_append, List.getLast?_concat] at h
    cases h
    exact digits_not n c hc l hx

theorem member_length {paths : List Str} {t : Thin} (ht : t.Ok paths) : (memberBytes paths t).length = 60 :=
  Ar.length_header _ _ _ _ _ _ (by have := ht.offset; simp only [List.length_cons]; omega) ht.mtime ht.uid ht.gid ht.mode ht.size

theorem parse_member (d : Bytes) (pos : Nat) (paths : List Str) (hp : ∀ p ∈ paths, ¬ [47, 10] <:+: encodeStr p) {t : Thin} (ht : t.Ok paths)
    (rest : Bytes) (files : List Ar.Entry) (hd : d.drop pos = memberBytes paths t ++ rest) :
    Ar.parseMember true d pos ((d.drop pos).take 60) files (some (.bytes (tableBytes paths))) =
      .ok (pos + 60, files ++ [entryOf paths pos t], some (.bytes (tableBytes paths))) := by
  have hh : (d.drop pos).take 60 = memberBytes paths t := by rw [hd]; exact List.take_left' (member_length ht)
  have hne : (47 :: Ar.digits 10 (at_ paths t)) ≠ [47] := by
    intro h
    injection h with _ h
    exact Ar.digits_ne_nil _ _ h
  have hne' : (47 :: Ar.digits 10 (at_ paths t)) ≠ [47, 47] := by
    intro h
    injection h with _ h
    exact digits_not _ 47 (by decide) [] h
  unfold Ar.parseMember
  rw [hh]
  unfold memberBytes
  rw [Ar.parseHeader_header true pos _ _ _ _ _ _ (by have := ht.offset; simp only [List.length_cons]; omega)
    (last_digit _ 0 (by decide)) (last_digit _ 32 (by decide)) ht.mtime ht.uid ht.gid ht.mode ht.size]
  simp only
  rw [if_neg hne, if_neg hne']
  unfold Ar.bsdName
  rw [if_neg (by simp [List.isPrefixOf])]
  simp only [Option.isSome_some, Bool.and_self, if_true, Bool.not_true, Bool.and_false, Bool.false_eq_true, if_false]
  rw [longName_ref paths hp ht, Ar.stripZeros_id _ (by simp) (last_digit _ 0 (by decide))]
  have hm : t.perm ||| Ar.S_IFREG ||| Ar.S_IFLNK = t.perm ||| 0o120000 := or_types t.perm
  rw [hm]
  rfl

/-- The entries from a position on. -/
def entries (paths : List Str) : Nat → List Thin → List Ar.Entry
  | _, [] => []
  | pos, t :: ts => entryOf paths pos t :: entries paths (pos + 60) ts

theorem parse_members (d : Bytes) (paths : List Str) (hp : ∀ p ∈ paths, ¬ [47, 10] <:+: encodeStr p) : ∀ (ts : List Thin) (pos : Nat)
    (files : List Ar.Entry), (∀ t ∈ ts, t.Ok paths) → d.drop pos = (ts.map (memberBytes paths)).flatten →
    Ar.parseLoop true d pos files (some (.bytes (tableBytes paths))) = .ok (files ++ entries paths pos ts) := by
  intro ts
  induction ts with
  | nil =>
    intro pos files _ hd
    rw [Ar.parseLoop, hd, if_pos (by simp)]
    simp [entries]
  | cons t ts ih =>
    intro pos files hok hd
    rw [List.map_cons, List.flatten_cons] at hd
    have ht := hok t (by simp)
    have hl := member_length ht
    rw [Ar.parseLoop_step (by rw [hd, List.length_append, hl]; omega) (parse_member d pos paths hp ht _ files hd),
      ih (pos + 60) _ (fun x hx => hok x (by simp [hx])) (Ar.drop_at _ _ d pos 60 hd hl)]
    simp [entries]

theorem table_even (paths : List Str) : (tableBytes paths).length % 2 = 0 := by
  unfold tableBytes
  rw [List.length_append, List.length_replicate]
  omega

theorem table_ne {paths : List Str} (h : paths ≠ []) : tableBytes paths ≠ [] := by
  cases paths with
  | nil => exact absurd rfl h
  | cons p ps =>
    intro hc
    have := congrArg List.length hc
    simp [tableBytes, Ar.tableOf] at this

/-- Where the headers of the files begin. -/
def first (symbols : Option Bytes) (paths : List Str) : Nat := 8 + (symbolBytes symbols).length + (60 + (tableBytes paths).length)

theorem parse_thin {symbols : Option Bytes} {paths : List Str} {ts : List Thin} (h : Ok symbols paths ts) :
    Ar.parse (bytesOf symbols paths ts) = .ok (entries paths (first symbols paths) ts) := by
  generalize hD : bytesOf symbols paths ts = d
  have hz : (Ar.digits 10 0).length ≤ 6 := by decide +kernel
  have hz8 : (Ar.digits 8 0).length ≤ 8 := by decide +kernel
  have hlen := Ar.length_header [47, 47] 0 0 0 0 (tableBytes paths).length (by decide) (by omega) hz hz hz8 h.table
  have hpad : Ar.padded (tableBytes paths) = tableBytes paths := by
    unfold Ar.padded
    rw [table_even]
    simp
  have h8 : d.take 8 = Ar.thinMagic := by
    rw [← hD]
    unfold bytesOf
    simp only [List.append_assoc]
    exact List.take_left' rfl
  have hd8 : d.drop 8 = symbolBytes symbols ++ (Ar.header [47, 47] 0 0 0 0 (tableBytes paths).length ++ (tableBytes paths ++
      (ts.map (memberBytes paths)).flatten)) := by
    rw [← hD]
    unfold bytesOf Ar.table
    rw [hpad]
    simp only [List.append_assoc]
    exact List.drop_left' rfl
  have hloop : ∀ pos, d.drop pos = Ar.header [47, 47] 0 0 0 0 (tableBytes paths).length ++ (tableBytes paths ++ (ts.map (memberBytes paths)).flatten) →
      Ar.parseLoop true d pos [] none = .ok (entries paths (pos + (60 + (tableBytes paths).length)) ts) := by
    intro pos hd
    have hd60 := Ar.drop_at _ _ d pos 60 hd hlen
    have hstep : Ar.parseMember true d pos ((d.drop pos).take 60) [] none =
        .ok (pos + 60 + (tableBytes paths).length, [], some (.bytes (tableBytes paths))) := by
      have hh : (d.drop pos).take 60 = Ar.header [47, 47] 0 0 0 0 (tableBytes paths).length := by rw [hd]; exact List.take_left' hlen
      unfold Ar.parseMember
      rw [hh, Ar.parseHeader_header true pos [47, 47] 0 0 0 0 _ (by decide) (by decide) (by decide) (by omega) hz hz hz8 h.table]
      simp only [Int.toNat_natCast]
      rw [if_neg (by decide), if_pos trivial]
      unfold Ar.readTable
      have ht : (d.drop (pos + 60)).take (tableBytes paths).length = tableBytes paths := by rw [hd60]; exact List.take_left
      simp only [ht, if_true, if_neg (table_ne h.nonempty), List.map_nil]
    rw [Ar.parseLoop_step (by rw [hd, List.length_append, hlen]; omega) hstep,
      parse_members d paths h.ends ts _ [] h.files (Ar.drop_at _ _ d (pos + 60) _ hd60 rfl), List.nil_append, Nat.add_assoc]
  unfold Ar.parse
  rw [h8, if_neg (by simp)]
  have hp : Ar.parseLoop (decide (Ar.thinMagic = Ar.thinMagic)) d 8 [] none = Ar.parseLoop true d 8 [] none := by simp
  rw [hp]
  cases symbols with
  | none =>
    rw [hloop 8 (by rw [hd8]; rfl)]
    rfl
  | some c =>
    replace hd8 : d.drop 8 = Ar.symbols c ++ _ := hd8
    have hs := Ar.parseMember_symbols (thin := true) d 8 c _ [] none (h.index c rfl) hd8
    have hl : 60 ≤ (Ar.symbols c).length := Ar.item_length (i := .symbols c) (h.index c rfl)
    rw [Ar.parseLoop_step (by rw [hd8, List.length_append]; omega) hs, hloop _ (Ar.drop_at _ _ d 8 _ hd8 rfl)]
    rfl

/-! ## the rows -/

/-- What is shown for a file: a symbolic link to its path. Its name is the number in the header. -/
def recOf (paths : List Str) (t : Thin) : Rec := ⟨[natStr (at_ paths t)], t.perm ||| 0o120000, t.path, t.mtime, t.uid, t.gid, t.data⟩

/-- The row of a file. -/
def rowAt (paths : List Str) (pos : Nat) (t : Thin) : FRow :=
  ⟨[], natStr (at_ paths t), pos, pos + 60, t.data.length, t.mtime, t.perm ||| 0o120000, t.path, t.uid, t.gid, false⟩

theorem rowOf_entry (paths : List Str) (pos : Nat) (t : Thin) : rowOf (entryOf paths pos t) = .ok (rowAt paths pos t) := by
  have h1 : decode (47 :: Ar.digits 10 (at_ paths t)) = .ok ('/' :: natStr (at_ paths t)) := by
    rw [← encode_natStr]
    exact decode_encode ('/' :: natStr (at_ paths t))
  have h2 : decode (encodeStr t.path) = .ok t.path := decode_encode t.path
  have hn : IsName (natStr (at_ paths t)) := isName_natStr _
  have h3 : normpath ('/' :: natStr (at_ paths t)) = canonical ([] ++ [natStr (at_ paths t)]) := by
    rw [(C14_canonical _).1]
    show canonical (place _) = _
    rw [place_number]
    rfl
  have h4 : splitPath (canonical ([] ++ [natStr (at_ paths t)])) = ([], natStr (at_ paths t)) := by
    unfold splitPath
    show (rsplit1 '/' ([] ++ '/' :: natStr (at_ paths t))).getD _ = _
    rw [rsplit1_append _ _ hn.2.1]
    rfl
  unfold rowOf
  show (match decode (47 :: Ar.digits 10 (at_ paths t)) with | .error err => _ | .ok name => _) = _
  rw [h1]
  show (match decode (encodeStr t.path) with | .error err => _ | .ok link => _) = _
  rw [h2]
  simp only
  unfold convert rowAt
  rw [h3, h4]
  have hm : modeOf (entryOf paths pos t) = t.perm ||| 0o120000 := by
    have hne : t.perm ||| 0o120000 ≠ 0 := by
      intro h
      have := congrArg (fun n => n &&& 0o120000) h
      rw [Nat.and_comm] at this
      simp only [Nat.zero_and] at this
      rw [Nat.and_or_distrib_left] at this
      have h5 := (Nat.or_eq_zero_iff.mp this).2
      exact absurd h5 (by decide)
    unfold modeOf
    show (if t.perm ||| 0o120000 = 0 then _ else t.perm ||| 0o120000) ||| 0o120000 ||| 0o100000 = _
    rw [if_neg hne]
    simp only [Nat.or_assoc]
    rfl
  rw [hm]
  rfl

/-- The rows from a position on. -/
def rows (paths : List Str) : Nat → List Thin → List FRow
  | _, [] => []
  | pos, t :: ts => rowAt paths pos t :: rows paths (pos + 60) ts

theorem rowsOf_entries (paths : List Str) : ∀ (ts : List Thin) (pos : Nat), rowsOf (entries paths pos ts) = .ok (rows paths pos ts) := by
  intro ts
  induction ts with
  | nil => intro pos; rfl
  | cons t ts ih =>
    intro pos
    show rowsOf (entryOf paths pos t :: entries paths (pos + 60) ts) = _
    unfold rowsOf
    rw [rowOf_entry, ih]
    rfl

theorem index_thin {symbols : Option Bytes} {paths : List Str} {ts : List Thin} (h : Ok symbols paths ts) :
    index (bytesOf symbols paths ts) = .ok (rows paths (first symbols paths) ts) := by
  unfold index
  rw [parse_thin h]
  exact rowsOf_entries _ _ _

theorem rows_get (paths : List Str) : ∀ (ts : List Thin) (pos k : Nat), (rows paths pos ts)[k]? = (ts[k]?).map (rowAt paths (pos + 60 * k)) := by
  intro ts
  induction ts with
  | nil => intro pos k; rfl
  | cons t ts ih =>
    intro pos k
    cases k with
    | zero => rfl
    | succ k =>
      show (rows paths (pos + 60) ts)[k]? = (ts[k]?).map _
      rw [ih, show pos + 60 + 60 * k = pos + 60 * (k + 1) by omega]

theorem rows_length (paths : List Str) : ∀ (ts : List Thin) (pos : Nat), (rows paths pos ts).length = ts.length := by
  intro ts
  induction ts with
  | nil => intro pos; rfl
  | cons t ts ih => intro pos; show (rows paths (pos + 60) ts).length + 1 = _; rw [ih]; rfl

theorem link_mode (n : Nat) (h : n < 4096) : (n ||| 0o120000) &&& 0xF000 = 0xA000 := by
  rw [show (0o120000 : Nat) = 10 * 4096 by decide, and_fmt, typeBits_or n 10 h (by decide)]

theorem indexed {symbols : Option Bytes} {paths : List Str} {ts : List Thin} (h : Ok symbols paths ts) :
    Indexed refuse (bytesOf symbols paths ts) (ts.map (recOf paths)) (rows paths (first symbols paths) ts)
      [toRows (rows paths (first symbols paths) ts)] := by
  constructor
  · intro p hp x hx
    obtain ⟨t, -, rfl⟩ := List.mem_map.mp hp
    rw [List.mem_singleton.mp hx]
    exact isName_natStr _
  · rw [rows_length, List.length_map]
  · intro k p r hk hr
    rw [List.getElem?_map, Option.map_eq_some_iff] at hk
    obtain ⟨t, ht, rfl⟩ := hk
    rw [rows_get, ht] at hr
    cases hr
    have hperm := (h.files t (List.mem_of_getElem? ht)).perm
    have hf : refuse (recOf paths t).mode = true := by
      unfold refuse recOf
      simp only
      rw [link_mode _ hperm]
      rfl
    refine ⟨?_, rfl, rfl, rfl, rfl, .inl hf, .inl hf⟩
    unfold splitPath
    show _ = (rsplit1 '/' ([] ++ '/' :: natStr (at_ paths t))).getD _
    rw [rsplit1_append _ _ (isName_natStr _).2.1]
    rfl
  · intro i j r r' hij hr hr' _ _
    rw [rows_get, Option.map_eq_some_iff] at hr hr'
    obtain ⟨t, -, rfl⟩ := hr
    obtain ⟨t', -, rfl⟩ := hr'
    show _ + 60 * i < _ + 60 * j
    omega
  · rintro p hp ⟨q, hq, n, rest, he⟩
    obtain ⟨t, -, rfl⟩ := List.mem_map.mp hp
    obtain ⟨u, -, rfl⟩ := List.mem_map.mp hq
    have := congrArg List.length he
    simp [recOf] at this
  · intro q; simp

/-! ## C199 -/

/-- The last file with a place in the table. -/
def lastRef (paths : List Str) (ts : List Thin) (offset : Nat) : Option Thin := (ts.filter (fun t => decide (at_ paths t = offset))).getLast?

theorem lastAt_thin (paths : List Str) (ts : List Thin) (offset : Nat) :
    lastAt (ts.map (recOf paths)) [natStr offset] = (lastRef paths ts offset).map (recOf paths) := by
  unfold lastAt lastRef
  rw [List.filter_map, List.getLast?_map]
  congr 2
  apply List.filter_congr
  intro t _
  simp only [Function.comp, recOf, List.cons.injEq, and_true]
  exact decide_eq_decide.mpr ⟨fun e => natStr_inj e, fun e => by rw [e]⟩

theorem reaches {symbols : Option Bytes} {paths : List Str} {ts : List Thin} (h : Ok symbols paths ts) {offset : Nat} {t : Thin}
    (hl : lastRef paths ts offset = some t) : Reaches (ts.map (recOf paths)) 0 [natStr offset] (recOf paths t) ∧ t.perm < 4096 := by
  have hp := (h.files t (List.mem_filter.mp (List.mem_of_getLast? hl)).1).perm
  refine ⟨.here _ _ (by simp) (by rw [lastAt_thin, hl]; rfl) ?_, hp⟩
  unfold Rec.isHard recOf
  simp only
  rw [link_mode _ hp]
  rfl

/-- **C199** Every thin archive can be mounted: there is one row for each file. -/
theorem C199_mounts {symbols : Option Bytes} {paths : List Str} {ts : List Thin} (h : Ok symbols paths ts) :
    ∃ rs, index (bytesOf symbols paths ts) = .ok rs ∧ rs.length = ts.length :=
  ⟨_, index_thin h, rows_length _ _ _⟩

/-- The property: every file of a thin archive is shown at its path, as a symbolic link to the file outside. (If two files have the same path,
both are the same link.) -/
def C199_statement : Prop :=
  ∀ (symbols : Option Bytes) (paths : List Str) (ts : List Thin) (rs : List FRow), Ok symbols paths ts →
    index (bytesOf symbols paths ts) = .ok rs → ∀ t ∈ ts, place t.path ≠ [] →
      mreadlink (source rs [toRows rs]) (canonical (place t.path)) = .ok t.path

/-- **C199** (partial: the name of the link is not that of the file but the number at which its path begins in the table.)
At this number there is a symbolic link with the path of the file as its target and with the permissions, the size, the time and the owner
in the header. After any calls it cannot be opened, because its data is not in the archive. -/
theorem C199_link_partial {symbols : Option Bytes} {paths : List Str} {ts : List Thin} (h : Ok symbols paths ts) {rs : List FRow}
    (hi : index (bytesOf symbols paths ts) = .ok rs) {offset : Nat} {t : Thin} (hl : lastRef paths ts offset = some t) (m : TarMount.Mount) :
    mgetattr rs (source rs [toRows rs]) ('/' :: natStr offset) = .ok ⟨t.perm ||| 0o120000, t.data.length, t.mtime, t.uid, t.gid⟩ ∧
      mreadlink (source rs [toRows rs]) ('/' :: natStr offset) = .ok t.path ∧
      mopen refuse rs (source rs [toRows rs]) m ('/' :: natStr offset) = (m, .error (.os 5)) := by
  rw [index_thin h] at hi
  cases hi
  obtain ⟨hr, hp⟩ := reaches h hl
  have hn : ∀ x ∈ [natStr offset], IsName x := by intro x hx; rw [List.mem_singleton.mp hx]; exact isName_natStr _
  have ha := attributes (indexed h) hr (by decide) hn
  refine ⟨ha.1, ha.2, ?_⟩
  refine refused (indexed h) hr (by decide) hn ?_ m
  unfold refuse recOf
  simp only
  rw [link_mode _ hp]
  rfl

/-- **C199** The root lists exactly these numbers. -/
theorem C199_list_partial {symbols : Option Bytes} {paths : List Str} {ts : List Thin} (h : Ok symbols paths ts) {rs : List FRow}
    (hi : index (bytesOf symbols paths ts) = .ok rs) (n : Str) :
    n ∈ mreaddir (source rs [toRows rs]) ['/'] ↔ n = ['.'] ∨ n = ['.', '.'] ∨ ∃ t ∈ ts, n = natStr (at_ paths t) := by
  rw [index_thin h] at hi
  cases hi
  have := lists (indexed h) (ns := []) (by simp) (by simp) n
  rw [show (['/'] : Str) = canonical [] from rfl, this]
  constructor
  · rintro (e | e | ⟨p, hp, rest, he⟩)
    · exact .inl e
    · exact .inr (.inl e)
    · obtain ⟨t, ht, rfl⟩ := List.mem_map.mp hp
      right; right
      refine ⟨t, ht, ?_⟩
      have : [natStr (at_ paths t)] = n :: rest := he
      injection this with e
      exact e.symm
  · rintro (e | e | ⟨t, ht, rfl⟩)
    · exact .inl e
    · exact .inr (.inl e)
    · exact .inr (.inr ⟨_, List.mem_map.mpr ⟨t, ht, rfl⟩, [], rfl⟩)

/-- **C199** Nothing else exists, in particular no file at a path that is not a number. -/
theorem C199_absent {symbols : Option Bytes} {paths : List Str} {ts : List Thin} (h : Ok symbols paths ts) {rs : List FRow}
    (hi : index (bytesOf symbols paths ts) = .ok rs) {ns : List Str} (hn : ∀ x ∈ ns, IsName x) (hne : ns ≠ [])
    (hv : ∀ x ∈ ns, endsWith dotVersions x = false) (hl : ∀ t ∈ ts, ns ≠ [natStr (at_ paths t)]) (m : TarMount.Mount) :
    mgetattr rs (source rs [toRows rs]) (canonical ns) = .error (.os 2) ∧
      mopen refuse rs (source rs [toRows rs]) m (canonical ns) = (m, .error (.os 2)) ∧
      mreadlink (source rs [toRows rs]) (canonical ns) = .error (.os 2) := by
  rw [index_thin h] at hi
  cases hi
  have h1 : lastAt (ts.map (recOf paths)) ns = none := by
    cases hc : lastAt (ts.map (recOf paths)) ns with
    | none => rfl
    | some p =>
      have hm := List.mem_filter.mp (List.mem_of_getLast? hc)
      obtain ⟨t, ht, rfl⟩ := List.mem_map.mp hm.1
      exact absurd (of_decide_eq_true hm.2).symm (hl t ht)
  have h2 : ¬ Below (ts.map (recOf paths)) ns := by
    rintro ⟨p, hp, n, rest, he⟩
    obtain ⟨t, ht, rfl⟩ := List.mem_map.mp hp
    have h3 : [natStr (at_ paths t)] = ns ++ n :: rest := he
    cases ns with
    | nil => exact hne rfl
    | cons a as =>
      injection h3 with _ h3
      have := congrArg List.length h3
      simp at this
  obtain ⟨g1, g2⟩ := absent (indexed h) hn hne hv h1 h2 m
  refine ⟨g1, g2, ?_⟩
  unfold mgetattr at g1
  unfold mreadlink
  cases hx : mlookup (source (rows paths (first symbols paths) ts) [toRows (rows paths (first symbols paths) ts)]) (canonical ns) with
  | error e => rw [hx] at g1; cases g1; rfl
  | ok i => rw [hx] at g1; cases g1

/-! ## a concrete archive -/

def demoPaths : List Str := ["src/a.o".toList, "ä.o".toList]

/-- A table of symbols and two files, the second one first. -/
def demo : List Thin := [⟨"ä.o".toList, 1, 7, 1000, 100, 0o644, [1, 2, 3]⟩, ⟨"src/a.o".toList, 0, 8, 0, 0, 0o755, [4]⟩]

theorem demo_ok : Ok (some [0, 0, 0, 0]) demoPaths demo where
  nonempty := by decide
  ends := by
    intro p hp
    simp only [demoPaths, List.mem_cons, List.not_mem_nil, or_false] at hp
    rcases hp with rfl | rfl <;> decide +kernel
  table := by decide +kernel
  index := by
    intro c hc
    cases hc
    decide +kernel
  files := by
    intro t ht
    simp only [demo, List.mem_cons, List.not_mem_nil, or_false] at ht
    rcases ht with rfl | rfl <;>
      exact ⟨by decide, by decide +kernel, by decide +kernel, by decide +kernel, by decide +kernel, by decide +kernel, by decide +kernel, by decide⟩

/-- C199: the second path begins at 9; so the link to `ä.o` is called `9`. -/
example (rs : List FRow) (h : index (bytesOf (some [0, 0, 0, 0]) demoPaths demo) = .ok rs) :
    mreadlink (source rs [toRows rs]) "/9".toList = .ok "ä.o".toList ∧
      mgetattr rs (source rs [toRows rs]) "/9".toList = .ok ⟨0o120644, 3, 7, 1000, 100⟩ ∧
      ['0'] ∈ mreaddir (source rs [toRows rs]) ['/'] := by
  have hl : lastRef demoPaths demo 9 = some ⟨"ä.o".toList, 1, 7, 1000, 100, 0o644, [1, 2, 3]⟩ := by decide
  have e : natStr 9 = ['9'] := by decide +kernel
  have e0 : natStr 0 = ['0'] := by decide +kernel
  have h1 := C199_link_partial demo_ok h hl (start [])
  rw [e] at h1
  refine ⟨h1.2.1, h1.1, (C199_list_partial demo_ok h ['0']).mpr (.inr (.inr ⟨⟨"src/a.o".toList, 0, 8, 0, 0, 0o755, [4]⟩, by decide, ?_⟩))⟩
  exact e0.symm

/-- **C199** The property does not hold: a file `src/a.o` is not found at its path. -/
theorem C199_violated : ¬ C199_statement := by
  intro hs
  have h1 := hs (some [0, 0, 0, 0]) demoPaths demo _ demo_ok (index_thin demo_ok) ⟨"src/a.o".toList, 0, 8, 0, 0, 0o755, [4]⟩ (by decide) (by decide)
  have h2 := (C199_absent demo_ok (index_thin demo_ok) (ns := place "src/a.o".toList) (by unfold IsName; decide) (by decide) (by decide) (by
    intro t ht e
    have := congrArg List.length e
    have h3 : (place "src/a.o".toList).length = 2 := by decide
    rw [h3] at this
    simp at this) (start [])).2.2
  rw [h2] at h1
  cases h1

end Verif.Fuse.ThinMount
