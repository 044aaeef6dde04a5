import Verif.Tar.Index

/-!
# C129, C130: checking the rows of an index against a TAR
(core/ratarmountcore/mountsource/formats/tar.py:1336-1416, core/ratarmountcore/SQLiteIndex.py:213)

As in `Verif.Tar.Index`, the owner, the times, the type flag and the flag for sparse files are not carried; the same comparison is made for
them. The sizes of sparse members with a PAX header for the size, which are changed when the index is made but not for this check
(tar.py:424-443), are not modelled.
-/

namespace Verif.Tar

open Verif.Py Verif.Index

/-- `SQLiteIndex.FROM_REGULAR_FILES` (SQLiteIndex.py:213). -/
def isRegularRow (r : IRow) : Bool := r.mode &&& 0xF000 == 0x8000

/-- `headerBlockCount` (tar.py:1367). -/
def headerSize (r : IRow) : Nat := max 1 ((r.offset - r.oh + 511) / 512) * 512

/-- The comparison of a stored row with the one that was made anew (tar.py:1391-1407): all columns but the path, the flags for TARs and
generated rows, and the recursion depth. -/
def sameColumns (stored real : IRow) : Bool :=
  stored.name == real.name && stored.oh == real.oh && stored.offset == real.offset && stored.size == real.size &&
    stored.mode == real.mode && stored.link == real.link

/-- Comparing with the rows that were made anew (tar.py:1384-1407). The last two columns must be 0 or 1; the last one is the recursion
depth. -/
def compareRow (r : IRow) : List IRow → Bool
  | [] => false
  | real :: _ => if r.depth > 1 then false else sameColumns r real

/-- One row of `_check_rows_validity` (tar.py:1359-1407). The part with the headers is iterated with `ignore_zeros`. `StopIteration` from
`next`, if there are only zero blocks, is not caught. -/
def checkRow (c : Codec) (o : Opts) (archive : Bytes) (r : IRow) : Except PyErr Bool :=
  match scan c true (readAt archive r.oh (headerSize r)) 0 with
  | ([], true) => .ok false
  | ([], false) => .error .runtimeError
  | (e :: _, _) => .ok (compareRow r (processTarInfo o false 0 [] r.oh e))

/-- `_check_rows_validity` (tar.py:1352-1416). -/
def checkRows (c : Codec) (o : Opts) (archive : Bytes) : List IRow → Except PyErr Bool
  | [] => .ok true
  | r :: rs =>
    match checkRow c o archive r with
    | .error x => .error x
    | .ok false => .ok false
    | .ok true => checkRows c o archive rs

/-! ## lemmas -/

set_option maxRecDepth 4000 in
theorem fromtarfile_data {c : Codec} {b : Bytes} {off : Nat} {h : Hdr} {data next : Nat} :
    fromtarfile c b off = .member h data next → data ≤ b.length ∧ (∃ k, data = off + 512 * (k + 1)) ∧ next = nextOffset h data := by
  fun_induction fromtarfile c b off generalizing h data next with
  | case5 off h1 h2 h3 h4 h5 h6 hd dt nx hm ih =>
    intro hh
    cases hh
    obtain ⟨i1, ⟨k, i2⟩, i3⟩ := ih hm
    refine ⟨i1, ⟨k + 1 + (h4.size + 511) / 512, ?_⟩, rfl⟩
    unfold roundUp at i2
    omega
  | case7 off h1 h2 h3 h4 h5 h6 =>
    intro hh
    cases hh
    exact ⟨by omega, ⟨0, by omega⟩, rfl⟩
  | _ => intro hh; cases hh

theorem length_readAt (b : Bytes) (o n : Nat) : (readAt b o n).length = min n (b.length - o) := by
  unfold readAt
  simp

set_option maxRecDepth 4000 in
theorem fromtarfile_part {c : Codec} {b : Bytes} {off : Nat} {h : Hdr} {data next : Nat} (o n : Nat) (ho : o ≤ off)
    (hf : fromtarfile c b off = .member h data next) (hd : data ≤ o + n) :
    fromtarfile c (readAt b o n) (off - o) = .member h (data - o) (nextOffset h (data - o)) := by
  fun_induction fromtarfile c b off generalizing h data next with
  | case5 off h1 h2 h3 h4 h5 h6 hd' dt nx hm ih =>
    cases hf
    obtain ⟨i1, ⟨k, i2⟩, i3⟩ := fromtarfile_data hm
    have hl := length_readAt b o n
    have hr : readAt (readAt b o n) (off - o) 512 = readAt b off 512 := by
      rw [readAt_readAt _ _ _ _ _ (by omega)]
      congr 1
      omega
    have hr2 : readAt (readAt b o n) (off - o + 512) (roundUp h4.size) = readAt b (off + 512) (roundUp h4.size) := by
      rw [readAt_readAt _ _ _ _ _ (by omega)]
      congr 1
      omega
    rw [fromtarfile, if_neg (by omega), dif_neg (by omega), hr, if_neg h3, h5]
    simp only
    rw [if_pos h6, hr2]
    have := ih (by omega) hm hd
    rw [show off - o + 512 + roundUp h4.size = off + 512 + roundUp h4.size - o by omega, this]
  | case7 off h1 h2 h3 h4 h5 h6 =>
    cases hf
    have hl := length_readAt b o n
    have hr : readAt (readAt b o n) (off - o) 512 = readAt b off 512 := by
      rw [readAt_readAt _ _ _ _ _ (by omega)]
      congr 1
      omega
    rw [fromtarfile, if_neg (by omega), dif_neg (by omega), hr, if_neg h3, h5]
    simp only
    rw [if_neg h6, show off + 512 - o = off - o + 512 by omega]
  | _ => cases hf

set_option maxRecDepth 4000 in
theorem fromtarfile_whole {c : Codec} {b : Bytes} {k : Nat} {h : Hdr} {data next : Nat} (o n : Nat)
    (hf : fromtarfile c (readAt b o n) k = .member h data next) :
    fromtarfile c b (o + k) = .member h (o + data) (nextOffset h (o + data)) := by
  have hl := length_readAt b o n
  generalize hp : readAt b o n = p at hf hl
  fun_induction fromtarfile c p k generalizing h data next with
  | case5 k h1 h2 h3 h4 h5 h6 hd' dt nx hm ih =>
    cases hf
    obtain ⟨i1, ⟨j, i2⟩, i3⟩ := fromtarfile_data hm
    have hr : readAt p k 512 = readAt b (o + k) 512 := by
      rw [← hp, readAt_readAt _ _ _ _ _ (by omega)]
    have hr2 : readAt p (k + 512) (roundUp h4.size) = readAt b (o + k + 512) (roundUp h4.size) := by
      rw [← hp, readAt_readAt _ _ _ _ _ (by omega)]
      congr 1
    rw [hr] at h3 h5
    rw [hr2]
    rw [fromtarfile, if_neg (by omega), dif_neg (by omega), if_neg h3, h5]
    simp only
    have := ih hm
    rw [if_pos h6, show o + k + 512 + roundUp h4.size = o + (k + 512 + roundUp h4.size) by omega, this]
  | case7 k h1 h2 h3 h4 h5 h6 =>
    cases hf
    have hr : readAt p k 512 = readAt b (o + k) 512 := by
      rw [← hp, readAt_readAt _ _ _ _ _ (by omega)]
    rw [hr] at h3 h5
    rw [fromtarfile, if_neg (by omega), dif_neg (by omega), if_neg h3, h5]
    simp only
    rw [if_neg h6]
    rfl
  | _ => cases hf

theorem scan_entry {c : Codec} {ign : Bool} {b : Bytes} {off : Nat} {e : Entry} (h : e ∈ (scan c ign b off).1) :
    ∃ next, fromtarfile c b e.offset = .member e.hdr e.data next := by
  fun_induction scan c ign b off with
  | case2 off _ h data next hm es err hs ih =>
    rw [hs] at ih
    rcases List.mem_cons.mp h with rfl | h
    · exact ⟨_, hm⟩
    · exact ih h
  | case3 _ _ _ _ ih => exact ih h
  | case5 _ _ _ _ ih => exact ih h
  | _ => cases h

theorem scan_first {c : Codec} {b : Bytes} {h : Hdr} {data next : Nat} (hf : fromtarfile c b 0 = .member h data next) (ign : Bool) :
    ∃ es err, scan c ign b 0 = (⟨h, 0, data⟩ :: es, err) := by
  rw [scan, dif_neg (by omega)]
  split
  · next h' d' n' hm =>
    rw [hf] at hm
    cases hm
    exact ⟨_, _, rfl⟩
  all_goals
    next hm =>
    rw [hf] at hm
    cases hm

theorem not_regular_or (m : Nat) : ¬ ((m ||| 0o040000) &&& 0xF000 = 0x8000) := by
  intro h
  have := congrArg (Nat.testBit · 14) h
  simp only [Nat.testBit_and, Nat.testBit_or] at this
  rw [show Nat.testBit 0o040000 14 = true from by decide, show Nat.testBit 0xF000 14 = true from by decide,
    show Nat.testBit 0x8000 14 = false from by decide] at this
  simp at this

theorem folderMode_not_regular (m : Nat) : ¬ (folderMode m &&& 0xF000 = 0x8000) := by
  have : folderMode m = ((m &&& 0o777) ||| (if m &&& 0o400 ≠ 0 then 0o100 else 0) |||
      (if m &&& 0o040 ≠ 0 then 0o010 else 0) ||| (if m &&& 0o004 ≠ 0 then 0o001 else 0)) ||| 0o040000 := by
    unfold folderMode
    ac_rfl
  rw [this]
  exact not_regular_or _

/-- Where a row of a regular file comes from. -/
structure FromHeader (c : Codec) (o : Opts) (whole : Bytes) (start : Nat) (top : Str) (r : IRow) (pre : Str) (h : Hdr) : Prop where
  header : ∃ next, fromtarfile c whole r.oh = .member h r.offset next
  size : r.size = h.size
  mode : r.mode = fullMode h.type h.mode
  link : r.link = h.link
  name : r.name = (rsplitPath (normpath (o.transform (pre ++ '/' :: h.name ++ (if isDir h.type then ['/'] else []))))).2
  depth : start ≤ r.depth
  outer : r.depth = start → pre = top

theorem rowOf_from {c : Codec} {o : Opts} {whole b : Bytes} {depth stream n : Nat} {pre : Str} {ign : Bool} {e : Entry}
    (hb : b = readAt whole stream n) (he : e ∈ (scan c ign b 0).1) :
    FromHeader c o whole depth pre (rowOf o depth pre stream e) pre e.hdr := by
  obtain ⟨next, hf⟩ := scan_entry he
  subst hb
  have := fromtarfile_whole _ _ hf
  exact ⟨⟨_, this⟩, rfl, rfl, rfl, rfl, Nat.le_refl _, fun _ => rfl⟩

theorem createIndex_from (c : Codec) (o : Opts) (whole : Bytes) : ∀ (k depth stream n : Nat) (pre : Str) (b : Bytes),
    b = readAt whole stream n → ∀ r ∈ createIndex c o whole k depth pre stream b, isRegularRow r = true →
      ∃ pre' h, FromHeader c o whole depth pre r pre' h := by
  intro k
  induction k with
  | zero => intro depth stream n pre b _ r hr; cases hr
  | succ k ih =>
    intro depth stream n pre b hb r hr hreg
    unfold createIndex at hr
    simp only at hr
    rcases List.mem_append.mp hr with hr | hr
    · obtain ⟨e, he, hr⟩ := List.mem_flatMap.mp hr
      have hrow := rowOf_from (o := o) (depth := depth) (pre := pre) hb he
      unfold processTarInfo at hr
      simp only at hr
      split at hr
      · rw [List.mem_singleton] at hr
        subst hr
        exact ⟨_, _, hrow⟩
      · split at hr
        · simp only [List.mem_cons, List.not_mem_nil, or_false] at hr
          rcases hr with rfl | rfl
          · exact ⟨_, _, hrow⟩
          · simp only [isRegularRow, beq_iff_eq] at hreg
            exact absurd hreg (not_regular_or _)
        · rw [List.mem_singleton] at hr
          subst hr
          exact ⟨_, _, hrow⟩
    · obtain ⟨t, ht, hr⟩ := List.mem_flatMap.mp hr
      have htar : ∃ e ∈ (scan c o.ignoreZeros b 0).1, rowOf o depth pre stream e = t := by
        split at ht
        · cases ht
        · obtain ⟨e, he, rfl⟩ := List.mem_map.mp ht
          exact ⟨e, (List.mem_filter.mp he).1, rfl⟩
      obtain ⟨e, he, rfl⟩ := htar
      have hrow := rowOf_from (o := o) (depth := depth) (pre := pre) hb he
      rcases List.mem_append.mp hr with hr | hr
      · obtain ⟨pre', h, hh⟩ := ih (depth + 1) _ _ _ _ rfl r hr hreg
        exact ⟨pre', h, hh.header, hh.size, hh.mode, hh.link, hh.name, by have := hh.depth; omega, fun hd => by have := hh.depth; omega⟩
      · simp only [List.mem_cons, List.not_mem_nil, or_false] at hr
        rcases hr with rfl | rfl
        · simp only [isRegularRow, beq_iff_eq] at hreg
          exact absurd hreg (folderMode_not_regular _)
        · exact ⟨_, _, hrow.header, hrow.size, hrow.mode, hrow.link, hrow.name, hrow.depth, hrow.outer⟩

theorem headerSize_eq {r : IRow} {k : Nat} (h : r.offset = r.oh + 512 * (k + 1)) : headerSize r = r.offset - r.oh := by
  unfold headerSize
  omega

/-- A row with the columns of a header at its place passes the check. -/
theorem checkRow_of {c : Codec} {o : Opts} {archive : Bytes} {r : IRow} {pre : Str} {h : Hdr} (hh : FromHeader c o archive 0 [] r pre h)
    (hd : r.depth ≤ 1)
    (hn : r.name = (rsplitPath (normpath (o.transform ('/' :: h.name ++ (if isDir h.type then ['/'] else []))))).2) :
    checkRow c o archive r = .ok true := by
  obtain ⟨next, hf⟩ := hh.header
  obtain ⟨h1, ⟨k, h2⟩, h3⟩ := fromtarfile_data hf
  have hp := fromtarfile_part r.oh (headerSize r) (Nat.le_refl _) hf (by rw [headerSize_eq h2]; omega)
  rw [Nat.sub_self] at hp
  obtain ⟨es, err, hs⟩ := scan_first hp true
  unfold checkRow
  rw [hs]
  simp only
  have hrow : ∃ rest, processTarInfo o false 0 [] r.oh ⟨h, 0, r.offset - r.oh⟩ = rowOf o 0 [] r.oh ⟨h, 0, r.offset - r.oh⟩ :: rest := by
    unfold processTarInfo
    simp only
    split
    · exact ⟨_, rfl⟩
    · split
      · exact ⟨_, rfl⟩
      · exact ⟨_, rfl⟩
  obtain ⟨rest, hrow⟩ := hrow
  rw [hrow]
  simp only [compareRow]
  rw [if_neg (by omega)]
  congr 1
  unfold sameColumns rowOf
  simp only [List.nil_append, Bool.and_eq_true, beq_iff_eq]
  refine ⟨⟨⟨⟨⟨hn, by omega⟩, by omega⟩, hh.size⟩, hh.mode⟩, hh.link⟩

theorem checkRows_true {c : Codec} {o : Opts} {archive : Bytes} {rows : List IRow} :
    checkRows c o archive rows = .ok true ↔ ∀ r ∈ rows, checkRow c o archive r = .ok true := by
  induction rows with
  | nil => simp [checkRows]
  | cons r rs ih =>
    unfold checkRows
    simp only [List.mem_cons, forall_eq_or_imp]
    cases hc : checkRow c o archive r with
    | error x => simp
    | ok b => cases b <;> simp [ih]

theorem walk_append (at_ a b : List Str) : walk at_ (a ++ b) = walk (walk at_ a) b := by
  induction a generalizing at_ with
  | nil => rfl
  | cons x a ih =>
    rw [List.cons_append, walk, walk, ih]

theorem split_snoc (p x : Str) (hx : '/' ∉ x) : split '/' (p ++ '/' :: x) = split '/' p ++ [x] := by
  induction p with
  | nil => rw [List.nil_append, split_cons_eq, split_of_not_mem _ _ hx]; rfl
  | cons y p ih =>
    by_cases hy : y = '/'
    · subst hy
      rw [List.cons_append, split_cons_eq, ih, split_cons_eq]
      rfl
    · obtain ⟨a, as, h1, h2⟩ := split_cons_ne '/' y p hy
      obtain ⟨b, bs, h3, h4⟩ := split_cons_ne '/' y (p ++ '/' :: x) hy
      rw [List.cons_append, h4, h2]
      rw [ih, h1, List.cons_append, List.cons.injEq] at h3
      rw [← h3.1, ← h3.2]
      rfl

theorem join_snoc (l : List Str) (x : Str) : ∃ q, '/' :: join '/' (l ++ [x]) = q ++ '/' :: x := by
  induction l with
  | nil => exact ⟨[], rfl⟩
  | cons y l ih =>
    obtain ⟨q, hq⟩ := ih
    cases l with
    | nil => exact ⟨'/' :: y, by simp [join]⟩
    | cons z l =>
      refine ⟨'/' :: y ++ q, ?_⟩
      rw [List.append_assoc, ← hq]
      simp [join]

theorem fullMode_dir {t : Char} (m : Nat) (h : isDir t = true) : ¬ (fullMode t m &&& 0xF000 = 0x8000) := by
  have : ∃ k, fullMode t m = k ||| 0o040000 := by
    unfold fullMode
    rw [if_pos h]
    refine ⟨m ||| (if isReg t || t == 'D' then 0o100000 else 0) ||| (if t == '2' then 0o120000 else 0) |||
      (if t == '3' then 0o020000 else 0) ||| (if t == '6' then 0o010000 else 0), ?_⟩
    ac_rfl
  obtain ⟨k, hk⟩ := this
  rw [hk]
  exact not_regular_or _

/-- The last name of a normal path is the last component if this is a name. -/
theorem last_name (p x : Str) (hx : IsName x) : (rsplitPath (normpath (p ++ '/' :: x))).2 = x := by
  have hw : walk [] (split '/' (p ++ '/' :: x)) = walk [] (split '/' p) ++ [x] := by
    rw [split_snoc _ _ hx.2.1, walk_append, walk_names _ _ (by simpa using hx)]
  have hn : ∃ q, normpath (p ++ '/' :: x) = q ++ '/' :: x := by
    rw [(C14_canonical _).1, hw, canonical_eq]
    exact join_snoc _ _
  obtain ⟨q, hq⟩ := hn
  rw [hq]
  unfold rsplitPath
  rw [rsplit1_append _ _ hx.2.1]
  rfl

/-! ## C129 -/

/-- C129 as claimed: whatever rows of regular files are chosen from a new index, they pass the check for the same archive. -/
def C129_statement : Prop :=
  ∀ (c : Codec) (o : Opts) (maxDepth : Nat) (archive : Bytes) (rows : List IRow),
    (∀ r ∈ rows, r ∈ newIndex c o maxDepth archive ∧ isRegularRow r = true) → checkRows c o archive rows = .ok true

/-- C129 for rows that are not in nested archives, for every archive and all options, and for rows in an archive directly in the archive
if paths are not transformed and names end with a proper name. Missing: deeper rows, which never pass, see `C129_deep`. -/
theorem C129_accepted_partial (c : Codec) (o : Opts) (maxDepth : Nat) (archive : Bytes) (rows : List IRow)
    (h : ∀ r ∈ rows, r ∈ newIndex c o maxDepth archive ∧ isRegularRow r = true)
    (hd : ∀ r ∈ rows, r.depth = 0 ∨ (r.depth = 1 ∧ o.transform = id ∧
      ∀ off hdr data next, fromtarfile c archive off = .member hdr data next → isDir hdr.type = false →
        ∃ q x, '/' :: hdr.name = q ++ '/' :: x ∧ IsName x)) :
    checkRows c o archive rows = .ok true := by
  rw [checkRows_true]
  intro r hr
  obtain ⟨h1, h2⟩ := h r hr
  obtain ⟨pre, hdr, hh⟩ := createIndex_from c o archive _ 0 0 archive.length [] archive (by simp [readAt]) r h1 h2
  rcases hd r hr with h0 | ⟨h0, ht, hnames⟩
  · refine checkRow_of hh (by omega) ?_
    have := hh.name
    rw [hh.outer h0] at this
    exact this
  · refine checkRow_of hh (by omega) ?_
    obtain ⟨next, hf⟩ := hh.header
    have hdir : isDir hdr.type = false := by
      rw [← Bool.not_eq_true]
      intro hdir
      simp only [isRegularRow, beq_iff_eq, hh.mode] at h2
      exact fullMode_dir _ hdir h2
    obtain ⟨q, x, hq, hx⟩ := hnames _ _ _ _ hf hdir
    rw [hh.name, ht, hdir]
    simp only [id, Bool.false_eq_true, if_false, List.append_nil]
    rw [hq, ← List.append_assoc, last_name _ _ hx, last_name _ _ hx]

/-- Rows in archives that are nested more deeply never pass. -/
theorem C129_deep_violated (c : Codec) (o : Opts) (archive : Bytes) (r : IRow) (rows : List IRow) (hr : r ∈ rows) (hd : 2 ≤ r.depth) :
    checkRows c o archive rows ≠ .ok true := by
  rw [Ne, checkRows_true]
  intro h
  have := h r hr
  unfold checkRow at this
  split at this
  · cases this
  · cases this
  · simp only [Except.ok.injEq] at this
    unfold compareRow at this
    split at this
    · cases this
    · rw [if_pos (by omega)] at this
      cases this

/-- `n.tar` with `n.tar` with `d`. -/
def deepArchive : Bytes := demoBlock 5 2 ++ demoBlock 3 2 ++ demoBlock 1 3 ++ List.replicate 2048 0

/-- The row of `d` in `deepArchive`. -/
def deepRow : IRow := ⟨"/n.tar/n.tar".toList, ['d'], 1024, 1536, 0, 0o100644, [], false, false, 2⟩

/-- C129 does not hold: the index of an archive with an archive with an archive is refused for the archive that it was made from. -/
theorem C129_violated : ¬ C129_statement := by
  intro h
  have := h demoCodec demoOpts 2 deepArchive [deepRow] (by
    intro r hr
    rw [List.mem_singleton] at hr
    subst hr
    exact ⟨by decide +kernel, by decide⟩)
  exact C129_deep_violated demoCodec demoOpts deepArchive deepRow [deepRow] (by simp) (by decide) this

/-- The row of the outer `n.tar` meets the hypotheses of `C129_accepted_partial`. -/
example : (⟨[], "n.tar".toList, 0, 512, 2048, 0o100644, [], true, false, 0⟩ : IRow) ∈ newIndex demoCodec demoOpts 2 deepArchive ∧
    isRegularRow ⟨[], "n.tar".toList, 0, 512, 2048, 0o100644, [], true, false, 0⟩ = true := by decide +kernel

/-- The row of the inner `n.tar`. -/
example : (⟨"/n.tar".toList, "n.tar".toList, 512, 1024, 1024, 0o100644, [], true, false, 1⟩ : IRow) ∈ newIndex demoCodec demoOpts 2 deepArchive ∧
    checkRow demoCodec demoOpts deepArchive ⟨"/n.tar".toList, "n.tar".toList, 512, 1024, 1024, 0o100644, [], true, false, 1⟩ = .ok true := by
  decide +kernel

/-! ## C130 -/

/-- C130: rows that pass describe members of the archive: at the stored place is a header with the stored size, mode, link and name, and
its data start where it is stored. -/
theorem C130_sound (c : Codec) (o : Opts) (archive : Bytes) (rows : List IRow) (h : checkRows c o archive rows = .ok true) :
    ∀ r ∈ rows, ∃ hdr next, fromtarfile c archive r.oh = .member hdr r.offset next ∧ r.size = hdr.size ∧
      r.mode = fullMode hdr.type hdr.mode ∧ r.link = hdr.link ∧
      ∃ folder, folder ++ '/' :: r.name = normpath (o.transform ('/' :: hdr.name ++ (if isDir hdr.type then ['/'] else []))) := by
  intro r hr
  have hc := checkRows_true.mp h r hr
  unfold checkRow at hc
  split at hc
  · cases hc
  · cases hc
  · next e es err hs =>
    simp only [Except.ok.injEq] at hc
    have hrow : ∃ rest, processTarInfo o false 0 [] r.oh e = rowOf o 0 [] r.oh e :: rest := by
      unfold processTarInfo
      simp only
      split
      · exact ⟨_, rfl⟩
      · split
        · exact ⟨_, rfl⟩
        · exact ⟨_, rfl⟩
    obtain ⟨rest, hrow⟩ := hrow
    rw [hrow] at hc
    simp only [compareRow] at hc
    split at hc
    · cases hc
    · unfold sameColumns rowOf at hc
      simp only [List.nil_append, Bool.and_eq_true, beq_iff_eq] at hc
      obtain ⟨⟨⟨⟨⟨h1, h2⟩, h3⟩, h4⟩, h5⟩, h6⟩ := hc
      have h0 : e.offset = 0 := by omega
      obtain ⟨next, hf⟩ := scan_entry (c := c) (ign := true) (b := readAt archive r.oh (headerSize r)) (off := 0) (e := e) (by rw [hs]; simp)
      rw [h0] at hf
      have := fromtarfile_whole _ _ hf
      rw [Nat.add_zero, ← h3] at this
      refine ⟨e.hdr, _, this, h4, h5, h6,
        (rsplitPath (normpath (o.transform ('/' :: e.hdr.name ++ (if isDir e.hdr.type then ['/'] else []))))).1, ?_⟩
      rw [h1]
      exact (rsplitPath_normpath _).1

example : checkRows demoCodec demoOpts deepArchive [⟨[], "n.tar".toList, 0, 512, 2048, 0o100644, [], false, false, 0⟩] = .ok true ∧
    checkRows demoCodec demoOpts deepArchive [⟨[], "n.tar".toList, 0, 512, 1024, 0o100644, [], false, false, 0⟩] = .ok false ∧
    checkRows demoCodec demoOpts deepArchive [⟨[], "x".toList, 2048, 2560, 0, 0o100644, [], false, false, 0⟩] = .error .runtimeError := by
  decide +kernel

/-! ## C131 -/

/-- C131 as claimed: the check of rows against any archive gives an answer. -/
def C131_statement : Prop := ∀ (c : Codec) (o : Opts) (archive : Bytes) (rows : List IRow), ∃ b, checkRows c o archive rows = .ok b

/-- C131 does not hold: if the header of a row was overwritten with zeros, `StopIteration` is raised. -/
theorem C131_violated : ¬ C131_statement := by
  intro h
  obtain ⟨b, hb⟩ := h demoCodec demoOpts (List.replicate 512 0) [⟨[], "x".toList, 0, 512, 0, 0o100644, [], false, false, 0⟩]
  have : checkRows demoCodec demoOpts (List.replicate 512 0) [⟨[], "x".toList, 0, 512, 0, 0o100644, [], false, false, 0⟩] =
      .error .runtimeError := by decide +kernel
  rw [this] at hb
  cases hb

/-- C131: it gives an answer if there is a header or nothing at the place of every row. -/
theorem C131_partial (c : Codec) (o : Opts) (archive : Bytes) (rows : List IRow)
    (h : ∀ r ∈ rows, archive.length < r.oh + 512 ∨ ∃ hdr next, fromtarfile c archive r.oh = .member hdr r.offset next) :
    ∃ b, checkRows c o archive rows = .ok b := by
  have hrow : ∀ r ∈ rows, ∃ b, checkRow c o archive r = .ok b := by
    intro r hr
    unfold checkRow
    rcases h r hr with hl | ⟨hdr, next, hf⟩
    · have hs : scan c true (readAt archive r.oh (headerSize r)) 0 = ([], true) := by
        have hlen := length_readAt archive r.oh (headerSize r)
        have hft : fromtarfile c (readAt archive r.oh (headerSize r)) 0 = .empty ∨
            fromtarfile c (readAt archive r.oh (headerSize r)) 0 = .truncated := by
          rw [fromtarfile]
          split
          · exact .inl rfl
          · rw [dif_pos (by omega)]
            exact .inr rfl
        rw [scan, dif_neg (by omega)]
        split <;> first | rfl | (next hm => rw [hm] at hft; simp at hft)
      rw [hs]
      exact ⟨false, rfl⟩
    · obtain ⟨h1, ⟨k, h2⟩, h3⟩ := fromtarfile_data hf
      have hp := fromtarfile_part r.oh (headerSize r) (Nat.le_refl _) hf (by rw [headerSize_eq h2]; omega)
      rw [Nat.sub_self] at hp
      obtain ⟨es, err, hs⟩ := scan_first hp true
      rw [hs]
      exact ⟨_, rfl⟩
  clear h
  induction rows with
  | nil => exact ⟨true, rfl⟩
  | cons r rs ih =>
    obtain ⟨b, hb⟩ := hrow r List.mem_cons_self
    unfold checkRows
    rw [hb]
    cases b with
    | false => exact ⟨false, rfl⟩
    | true => exact ih (fun x hx => hrow x (List.mem_cons_of_mem _ hx))

end Verif.Tar
