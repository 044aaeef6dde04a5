import Verif.Stencil.Props
import Verif.Index.Normpath

/-!
# C25: the members of a TAR archive (core/ratarmountcore/mountsource/formats/tar.py:194-278, 366-490, 849-920)

The code iterates with Python's `tarfile`. Its loop (`TarFile.next`, `TarInfo.fromtarfile`, `_proc_member`,
`_proc_builtin`, `_proc_gnulong`, `_proc_pax` of CPython 3.11) is modelled here. The header codec is a parameter:
what the 512 bytes of a header mean (`TarInfo.frombuf`) and how a preceding GNU or PAX header amends it.

Simplifications: global PAX headers only amend the next member; sparse members are in `Verif.Tar.Sparse`; the
names of GNU incremental archives (153-192) are not fixed; owner, group, times and PAX attributes are not carried.
-/

namespace Verif.Tar

open Verif.Py Verif.Index

/-- Data (tar.py:392-477). -/
abbrev Bytes := List UInt8

/-- What `TarInfo.frombuf` extracts from a header block (Python library, `tarfile`, used at tar.py:392-477). `type` is the one-byte type flag. -/
structure Hdr where
  name : Str
  size : Nat
  type : Char
  mode : Nat
  link : Str
  deriving DecidableEq, Repr

/-- The header codec (Python library, `tarfile`, used at tar.py:392-477). `parse` is only used for blocks of 512 bytes that are not all zero; `none` is
`InvalidHeaderError`. `amend aux content h` applies a GNU long name/link or PAX header to the next one. -/
structure Codec where
  parse : Bytes → Option Hdr
  amend : Hdr → Bytes → Hdr → Hdr

/-- `TarInfo._block`: rounded up to whole blocks (Python library, `tarfile`, used at tar.py:392-477). -/
def roundUp (n : Nat) : Nat := (n + 511) / 512 * 512

/-- `fileobj.seek(o); fileobj.read(n)` (Python library, `tarfile`, used at tar.py:392-477). -/
def readAt (b : Bytes) (o n : Nat) : Bytes := (b.drop o).take n

/-- Types handled by `_proc_gnulong` and `_proc_pax` (Python library, `tarfile`, used at tar.py:392-477). -/
def isAux (t : Char) : Bool := t ∈ ['L', 'K', 'x', 'g', 'X']

/-- `isreg()` (Python library, `tarfile`, used at tar.py:392-477). -/
def isReg (t : Char) : Bool := t ∈ ['0', '\x00', '7', 'S']

/-- `isreg() or type not in SUPPORTED_TYPES`: data blocks follow (Python library, `tarfile`, used at tar.py:392-477). -/
def hasData (t : Char) : Bool := isReg t || !(t ∈ ['0', '\x00', '1', '2', '5', '6', '7', '3', '4', 'L', 'K', 'S'])

/-- Result of `TarInfo.fromtarfile`: a member with its data offset and the offset of the next header, or the
raised `HeaderError` (Python library, `tarfile`, used at tar.py:392-477). -/
inductive HdrRes where
  | member (h : Hdr) (data next : Nat)
  | empty
  | truncated
  | zero
  | invalid
  | subsequent
  deriving DecidableEq, Repr

/-- Where the next header is (`_proc_builtin`, and again in `_proc_pax` when a PAX header changes the size) (Python library, `tarfile`, used at tar.py:392-477). -/
def nextOffset (h : Hdr) (data : Nat) : Nat := data + (if hasData h.type then roundUp h.size else 0)

set_option maxRecDepth 4000 in
/-- `TarInfo.fromtarfile` at an offset (Python library, `tarfile`, used at tar.py:392-477). -/
def fromtarfile (c : Codec) (b : Bytes) (off : Nat) : HdrRes :=
  if b.length ≤ off then .empty
  else if _hlen : b.length < off + 512 then .truncated
  else if (readAt b off 512).all (· == 0) then .zero
  else
    match c.parse (readAt b off 512) with
    | none => .invalid
    | some h =>
      if isAux h.type then
        match fromtarfile c b (off + 512 + roundUp h.size) with
        | .member h' data _ =>
          .member (c.amend h (readAt b (off + 512) (roundUp h.size)) h') data
            (nextOffset (c.amend h (readAt b (off + 512) (roundUp h.size)) h') data)
        | _ => .subsequent
      else .member h (off + 512) (nextOffset h (off + 512))
termination_by b.length - off
decreasing_by omega

/-- A `TarInfo` as iterated: header, `offset`, `offset_data` (Python library, `tarfile`, used at tar.py:392-477). -/
structure Entry where
  hdr : Hdr
  offset : Nat
  data : Nat
  deriving DecidableEq, Repr

theorem fromtarfile_next {c : Codec} {b : Bytes} {off : Nat} {h : Hdr} {data next : Nat} :
    fromtarfile c b off = .member h data next → off + 512 ≤ b.length ∧ off < data ∧ data ≤ next := by
  fun_induction fromtarfile c b off generalizing h data next with
  | case5 off h1 h2 h3 h4 h5 h6 hd dt nx hm ih =>
    intro hh
    cases hh
    have := ih hm
    unfold nextOffset
    omega
  | case7 off h1 h2 h3 h4 h5 h6 =>
    intro hh
    cases hh
    unfold nextOffset
    omega
  | _ => intro hh; cases hh

/-- The iteration (`TarFile.next` until it returns `None`), and whether it ended with a `ReadError`. The error at
offset 0 is raised by `tarfile.open` and gives an empty list in `_open_tar` (tar.py:366-390), which is the same. -/
def scan (c : Codec) (ignoreZeros : Bool) (b : Bytes) (off : Nat) : List Entry × Bool :=
  if _hb : b.length < off then ([], true)                -- "unexpected end of data"
  else
    match hm : fromtarfile c b off with
    | .member h data next =>
      let (es, err) := scan c ignoreZeros b next
      (⟨h, off, data⟩ :: es, err)
    | .zero => if ignoreZeros && decide (off + 512 ≤ b.length) then scan c ignoreZeros b (off + 512) else ([], false)
    | .invalid =>
      if ignoreZeros && decide (off + 512 ≤ b.length) then scan c ignoreZeros b (off + 512) else ([], off == 0)
    | .empty | .truncated => ([], off == 0)
    | .subsequent => ([], true)
termination_by b.length + 1 - off
decreasing_by
  · have := fromtarfile_next hm; omega
  · rename_i h; simp at h; omega
  · rename_i h; simp at h; omega

/-! ## specification: what a TAR writer produces -/

/-- A GNU long name/link or PAX header: its block and its contents with padding. -/
structure Aux where
  block : Bytes
  content : Bytes

/-- A member: preceding headers, its own header block, data and padding. -/
structure Member where
  aux : List Aux
  block : Bytes
  data : Bytes
  padding : Bytes

/-- Bytes of the headers. -/
def Member.head (m : Member) : Bytes := m.aux.flatMap (fun a => a.block ++ a.content) ++ m.block

def Member.encode (m : Member) : Bytes := m.head ++ m.data ++ m.padding

def encode (ms : List Member) : Bytes := ms.flatMap Member.encode

/-- An archive: members (with their effective headers) and any number of zero bytes. -/
def archiveOf (ms : List (Member × Hdr)) (n : Nat) : Bytes := encode (ms.map (fun p => p.1)) ++ List.replicate n 0

/-- A block that is not zero and parses to the header. -/
def IsBlock (c : Codec) (b : Bytes) (h : Hdr) : Prop :=
  b.length = 512 ∧ (∃ x ∈ b, x ≠ 0) ∧ c.parse b = some h

/-- The headers that announce something about the next one: long names, long links and extended headers. -/
def announces (t : Char) : Bool := t == 'L' || t == 'K' || t == 'x' || t == 'g' || t == 'X'

theorem isAux_eq (t : Char) : isAux t = announces t := by
  unfold isAux announces
  rw [Bool.eq_iff_iff]
  simp [or_assoc]

/-- The headers of a member are well formed and, all applied, give the header `h`. -/
def HeadOk (c : Codec) : List Aux → Bytes → Hdr → Hdr → Prop
  | [], block, own, h => IsBlock c block own ∧ announces own.type = false ∧ h = own
  | a :: as, block, own, h => ∃ ah h', IsBlock c a.block ah ∧ announces ah.type = true ∧ a.content.length = roundUp ah.size ∧
      HeadOk c as block own h' ∧ h = c.amend ah a.content h'

/-- A well-formed member whose effective header is `h`: the stored size is the length of the data, kinds without data
have size 0, and the data is padded to whole blocks. -/
structure Member.Ok (c : Codec) (m : Member) (h : Hdr) : Prop where
  own : ∃ own, HeadOk c m.aux m.block own h
  size : h.size = m.data.length
  none : hasData h.type = false → m.data = []
  padded : m.data.length + m.padding.length = roundUp m.data.length

/-! ## lemmas -/

theorem readAt_mid (pre x post : Bytes) : readAt (pre ++ (x ++ post)) pre.length x.length = x := by
  unfold readAt
  rw [List.drop_append_of_le_length (Nat.le_refl _), List.drop_length, List.nil_append,
    List.take_append_of_le_length (Nat.le_refl _), List.take_length]

theorem not_all_zero {b : Bytes} (h : ∃ x ∈ b, x ≠ 0) : b.all (· == 0) = false := by
  obtain ⟨x, hx, h0⟩ := h
  rw [List.all_eq_false]
  exact ⟨x, hx, by simpa using h0⟩

theorem fromtarfile_head (c : Codec) (block : Bytes) (own : Hdr) : ∀ (aux : List Aux) (h : Hdr) (pre post : Bytes),
    HeadOk c aux block own h →
    fromtarfile c (pre ++ (aux.flatMap (fun a => a.block ++ a.content) ++ block ++ post)) pre.length =
      .member h (pre.length + (aux.flatMap (fun a => a.block ++ a.content) ++ block).length)
        (nextOffset h (pre.length + (aux.flatMap (fun a => a.block ++ a.content) ++ block).length)) := by
  intro aux
  induction aux with
  | nil =>
    rintro h pre post ⟨⟨hl, hz, hp⟩, ha, rfl⟩
    rw [← isAux_eq] at ha
    rw [fromtarfile]
    have hr : readAt (pre ++ (List.flatMap (fun a : Aux => a.block ++ a.content) [] ++ block ++ post)) pre.length 512 = block := by
      rw [← hl]; exact readAt_mid pre block post
    rw [if_neg (by simp only [List.length_append, hl]; omega), dif_neg (by simp only [List.length_append, hl]; omega),
      hr, not_all_zero hz, hp]
    simp only [ha, Bool.false_eq_true, if_false, List.flatMap_nil, List.nil_append, hl]
  | cons a aux ih =>
    rintro h pre post ⟨ah, h', ⟨hl, hz, hp⟩, ha, hc, hok, rfl⟩
    rw [← isAux_eq] at ha
    rw [fromtarfile]
    have e1 : pre ++ (List.flatMap (fun a : Aux => a.block ++ a.content) (a :: aux) ++ block ++ post) =
        (pre ++ a.block ++ a.content) ++ (List.flatMap (fun a : Aux => a.block ++ a.content) aux ++ block ++ post) := by
      simp [List.append_assoc]
    have e2 : pre ++ (List.flatMap (fun a : Aux => a.block ++ a.content) (a :: aux) ++ block ++ post) =
        pre ++ (a.block ++ (a.content ++ (List.flatMap (fun a : Aux => a.block ++ a.content) aux ++ block ++ post))) := by
      simp [List.append_assoc]
    have e3 : pre ++ (List.flatMap (fun a : Aux => a.block ++ a.content) (a :: aux) ++ block ++ post) =
        (pre ++ a.block) ++ (a.content ++ (List.flatMap (fun a : Aux => a.block ++ a.content) aux ++ block ++ post)) := by
      simp [List.append_assoc]
    have r1 : readAt (pre ++ (List.flatMap (fun a : Aux => a.block ++ a.content) (a :: aux) ++ block ++ post)) pre.length 512 =
        a.block := by
      rw [e2, ← hl]; exact readAt_mid _ _ _
    have r2 : readAt (pre ++ (List.flatMap (fun a : Aux => a.block ++ a.content) (a :: aux) ++ block ++ post))
        (pre.length + 512) (roundUp ah.size) = a.content := by
      rw [e3, ← hc, show pre.length + 512 = (pre ++ a.block).length by rw [List.length_append, hl]]
      exact readAt_mid _ _ _
    have r3 := ih h' (pre ++ a.block ++ a.content) post hok
    rw [← e1] at r3
    have hlen : (pre ++ a.block ++ a.content).length = pre.length + 512 + roundUp ah.size := by
      simp only [List.length_append, hl, hc]
    rw [hlen] at r3
    rw [if_neg (by simp only [List.length_append, List.flatMap_cons, hl]; omega),
      dif_neg (by simp only [List.length_append, List.flatMap_cons, hl]; omega), r1, not_all_zero hz, hp]
    simp only [ha, Bool.false_eq_true, if_false, if_true, r3, r2]
    have : pre.length + 512 + roundUp ah.size + (List.flatMap (fun a : Aux => a.block ++ a.content) aux ++ block).length =
        pre.length + (List.flatMap (fun a : Aux => a.block ++ a.content) (a :: aux) ++ block).length := by
      simp only [List.length_append, List.flatMap_cons, hl, hc]; omega
    rw [this]

/-- The entries of members that start at the given offset. -/
def entriesAt : Nat → List (Member × Hdr) → List Entry
  | _, [] => []
  | off, (m, h) :: ms => ⟨h, off, off + m.head.length⟩ :: entriesAt (off + m.encode.length) ms

theorem encode_cons (m : Member) (ms : List Member) : encode (m :: ms) = m.encode ++ encode ms := rfl

theorem nextOffset_ok {c : Codec} {m : Member} {h : Hdr} (hok : m.Ok c h) (off : Nat) :
    nextOffset h (off + m.head.length) = off + m.encode.length := by
  unfold nextOffset Member.encode
  simp only [List.length_append]
  have hp := hok.padded
  cases hd : hasData h.type with
  | true => rw [if_pos rfl, hok.size, ← hp]; omega
  | false =>
    have := hok.none hd
    rw [this] at hp ⊢
    simp only [List.length_nil, roundUp] at hp ⊢
    simp only [Bool.false_eq_true, if_false]
    omega

/-- Scanning over well-formed members, whatever is before and after. -/
theorem scan_members (c : Codec) (ign : Bool) (ms : List (Member × Hdr)) : ∀ (pre post : Bytes),
    (∀ p ∈ ms, p.1.Ok c p.2) →
    scan c ign (pre ++ (encode (ms.map (·.1)) ++ post)) pre.length =
      (entriesAt pre.length ms ++
        (scan c ign (pre ++ (encode (ms.map (·.1)) ++ post)) (pre ++ encode (ms.map (·.1))).length).1,
       (scan c ign (pre ++ (encode (ms.map (·.1)) ++ post)) (pre ++ encode (ms.map (·.1))).length).2) := by
  induction ms with
  | nil => intro pre post _; simp [entriesAt, encode]
  | cons p ms ih =>
    obtain ⟨m, h⟩ := p
    intro pre post hok
    have hm : m.Ok c h := hok (m, h) (by simp)
    obtain ⟨own, ho⟩ := hm.own
    have e1 : pre ++ (encode (((m, h) :: ms).map (·.1)) ++ post) =
        pre ++ (m.aux.flatMap (fun a => a.block ++ a.content) ++ m.block ++
          (m.data ++ m.padding ++ (encode (ms.map (·.1)) ++ post))) := by
      simp [encode_cons, Member.encode, Member.head, List.append_assoc]
    have e2 : pre ++ (encode (((m, h) :: ms).map (·.1)) ++ post) =
        (pre ++ m.encode) ++ (encode (ms.map (·.1)) ++ post) := by
      simp [encode_cons, List.append_assoc]
    have hf := fromtarfile_head c m.block own m.aux h pre (m.data ++ m.padding ++ (encode (ms.map (·.1)) ++ post)) ho
    rw [← e1] at hf
    have hn := nextOffset_ok hm pre.length
    unfold Member.head at hn
    rw [hn] at hf
    have ihh := ih (pre ++ m.encode) post (fun p hp => hok p (List.mem_cons_of_mem _ hp))
    rw [← e2] at ihh
    rw [scan, dif_neg (by simp only [List.length_append]; omega)]
    split
    · next h' data next hh =>
      rw [hf] at hh
      simp only [HdrRes.member.injEq] at hh
      obtain ⟨rfl, rfl, rfl⟩ := hh
      rw [List.length_append] at ihh
      rw [ihh]
      have e3 : pre ++ m.encode ++ encode (List.map (·.1) ms) = pre ++ encode (List.map (·.1) ((m, h) :: ms)) := by
        simp [encode_cons, List.append_assoc]
      rw [e3]
      rfl
    all_goals (rename_i hh; rw [hf] at hh; cases hh)

theorem scan_zeros (c : Codec) (ign : Bool) (b : Bytes) : ∀ (n : Nat) (off : Nat), b.length = off + n →
    (∀ x ∈ b.drop off, x = 0) → (scan c ign b off).1 = [] ∧ ((scan c ign b off).2 = true → off = 0 ∧ n < 512) := by
  intro n
  induction n using Nat.strongRecOn with
  | ind n ih =>
    intro off hl hz
    rw [scan, dif_neg (by omega)]
    have hf : fromtarfile c b off = if b.length ≤ off then .empty else if b.length < off + 512 then .truncated else .zero := by
      rw [fromtarfile]
      split
      · rfl
      · split
        · rfl
        · have : (readAt b off 512).all (· == 0) = true := by
            rw [List.all_eq_true]
            intro x hx
            exact beq_iff_eq.mpr (hz x (List.mem_of_mem_take hx))
          rw [if_pos this]
    split
    · next hh => rw [hf] at hh; split at hh; cases hh; split at hh <;> cases hh
    · next hh =>
      have hlen : off + 512 ≤ b.length := by
        rw [hf] at hh; split at hh; cases hh; split at hh; cases hh; omega
      split
      · have := ih (n - 512) (by omega) (off + 512) (by omega) (fun x hx => hz x (by
          rw [← List.drop_drop] at hx; exact List.mem_of_mem_drop hx))
        exact ⟨this.1, fun h => absurd (this.2 h).1 (by omega)⟩
      · simp
    · next hh => rw [hf] at hh; split at hh; cases hh; split at hh <;> cases hh
    · next hh => simp only [beq_iff_eq, true_and]; rw [hf] at hh; split at hh; omega; split at hh <;> cases hh
    · next hh => simp only [beq_iff_eq, true_and]; rw [hf] at hh; split at hh; cases hh; split at hh; omega; cases hh
    · next hh => rw [hf] at hh; split at hh; cases hh; split at hh <;> cases hh

/-- A whole archive: members and any number of zero bytes. -/
theorem scan_archive (c : Codec) (ign : Bool) (ms : List (Member × Hdr)) (n : Nat) (hok : ∀ p ∈ ms, p.1.Ok c p.2) :
    (scan c ign (encode (ms.map (·.1)) ++ List.replicate n 0) 0).1 = entriesAt 0 ms := by
  have h1 := scan_members c ign ms [] (List.replicate n 0) hok
  simp only [List.nil_append, List.length_nil] at h1
  have h2 := scan_zeros c ign (encode (ms.map (·.1)) ++ List.replicate n 0) n (encode (ms.map (·.1))).length
    (by simp) (by intro x hx; rw [List.drop_left] at hx; exact List.eq_of_mem_replicate hx)
  rw [h1]
  simp only [h2.1, List.append_nil]

theorem head_pos {c : Codec} {m : Member} {h : Hdr} (hok : m.Ok c h) : 512 ≤ m.head.length := by
  obtain ⟨own, ho⟩ := hok.own
  have : ∀ (aux : List Aux) h, HeadOk c aux m.block own h → m.block.length = 512 := by
    intro aux
    induction aux with
    | nil => rintro h ⟨⟨hl, _⟩, _⟩; exact hl
    | cons a aux ih => rintro h ⟨ah, h', _, _, _, hk, _⟩; exact ih h' hk
  have := this _ _ ho
  simp [Member.head, this]

theorem scan_archive_err (c : Codec) (ign : Bool) (ms : List (Member × Hdr)) (n : Nat) (hok : ∀ p ∈ ms, p.1.Ok c p.2)
    (hne : ms ≠ []) : (scan c ign (encode (ms.map (·.1)) ++ List.replicate n 0) 0).2 = false := by
  have h1 := scan_members c ign ms [] (List.replicate n 0) hok
  simp only [List.nil_append, List.length_nil] at h1
  have h2 := scan_zeros c ign (encode (ms.map (·.1)) ++ List.replicate n 0) n (encode (ms.map (·.1))).length
    (by simp) (by intro x hx; rw [List.drop_left] at hx; exact List.eq_of_mem_replicate hx)
  rw [h1]
  simp only
  rw [← Bool.not_eq_true]
  intro h
  have h0 := (h2.2 h).1
  cases ms with
  | nil => exact hne rfl
  | cons p ms =>
    have := head_pos (hok p (by simp))
    simp only [List.map_cons, encode_cons, Member.encode, List.length_append] at h0
    omega

theorem entriesAt_spec (c : Codec) (ms : List (Member × Hdr)) : ∀ (pre post : Bytes) (k : Nat) (m : Member) (h : Hdr),
    (∀ p ∈ ms, p.1.Ok c p.2) → ms[k]? = some (m, h) →
    ∃ e, (entriesAt pre.length ms)[k]? = some e ∧ e.hdr = h ∧
      e.offset = (pre ++ encode ((ms.take k).map (·.1))).length ∧ e.data = e.offset + m.head.length ∧
      readAt (pre ++ (encode (ms.map (·.1)) ++ post)) e.data h.size = m.data ∧
      e.data + h.size ≤ (pre ++ encode (ms.map (·.1))).length := by
  induction ms with
  | nil => intro pre post k m h _ hk; simp at hk
  | cons p ms ih =>
    obtain ⟨m0, h0⟩ := p
    intro pre post k m h hok hk
    cases k with
    | zero =>
      simp only [List.getElem?_cons_zero, Option.some.injEq, Prod.mk.injEq] at hk
      obtain ⟨rfl, rfl⟩ := hk
      have hm : m0.Ok c h0 := hok (m0, h0) (by simp)
      refine ⟨⟨h0, pre.length, pre.length + m0.head.length⟩, by simp [entriesAt], rfl, by simp [encode], rfl, ?_, ?_⟩
      · rw [hm.size]
        have e : pre ++ (encode (((m0, h0) :: ms).map (·.1)) ++ post) =
            (pre ++ m0.head) ++ (m0.data ++ (m0.padding ++ (encode (ms.map (·.1)) ++ post))) := by
          simp [encode_cons, Member.encode, List.append_assoc]
        rw [e, show pre.length + m0.head.length = (pre ++ m0.head).length by simp]
        exact readAt_mid _ _ _
      · simp only [hm.size, List.map_cons, encode_cons, Member.encode, List.length_append]; omega
    | succ k =>
      have hk' : ms[k]? = some (m, h) := by simpa using hk
      obtain ⟨e, h1, h2, h3, h4, h5, h6⟩ := ih (pre ++ m0.encode) post k m h (fun p hp => hok p (List.mem_cons_of_mem _ hp)) hk'
      have e1 : pre ++ (encode (((m0, h0) :: ms).map (·.1)) ++ post) =
          (pre ++ m0.encode) ++ (encode (ms.map (·.1)) ++ post) := by simp [encode_cons, List.append_assoc]
      have e2 : pre ++ encode (((m0, h0) :: ms).map (·.1)) = (pre ++ m0.encode) ++ encode (ms.map (·.1)) := by
        simp [encode_cons, List.append_assoc]
      refine ⟨e, ?_, h2, ?_, h4, by rw [e1]; exact h5, by rw [e2]; exact h6⟩
      · simpa [entriesAt, List.length_append] using h1
      · rw [h3]; simp [encode_cons, List.append_assoc]

/-! ## C25 -/

/-- **C25**, the iteration: for every list of well-formed members followed by any number of zero bytes, exactly the
members are found, in order, with the offset of their first header, and the recorded range of the archive is the
data. -/
theorem C25_members (c : Codec) (ignoreZeros : Bool) (ms : List (Member × Hdr)) (n : Nat)
    (hok : ∀ p ∈ ms, p.1.Ok c p.2) :
    let archive := archiveOf ms n
    (scan c ignoreZeros archive 0).1.length = ms.length ∧
    ∀ k m h, ms[k]? = some (m, h) → ∃ e, (scan c ignoreZeros archive 0).1[k]? = some e ∧ e.hdr = h ∧
      e.offset = (encode ((ms.take k).map (·.1))).length ∧ readAt archive e.data h.size = m.data := by
  intro archive
  have hs : (scan c ignoreZeros archive 0).1 = entriesAt 0 ms := scan_archive c ignoreZeros ms n hok
  have hlen : ∀ (ms : List (Member × Hdr)) (o : Nat), (entriesAt o ms).length = ms.length := by
    intro ms
    induction ms with
    | nil => intro o; rfl
    | cons p ms ih => intro o; obtain ⟨m, h⟩ := p; simp [entriesAt, ih]
  refine ⟨by rw [hs, hlen], ?_⟩
  intro k m h hk
  obtain ⟨e, h1, h2, h3, h4, h5, h6⟩ := entriesAt_spec c ms [] (List.replicate n 0) k m h hok hk
  exact ⟨e, by rw [hs]; exact h1, h2, by simpa using h3, h5⟩

end Verif.Tar
