import Verif.Formats.Fsspec
import Verif.Py

/-!
# C150, C151: EXT4 images
(core/ratarmountcore/mountsource/formats/ext4.py:33-126)

The library reads the volume: inodes by number, `inode_at` walks from the root. Names in folders are bytes.
-/

namespace Verif.Ext4

open Verif.Py Verif.Index Verif.Compose

/-- An inode as the library gives it (ext4.py:57-67); `entries` are the names and inodes of a folder, including `.` and `..`, and `target` is
where a symbolic link leads. -/
structure Inode where
  mode : Nat
  size : Nat
  mtime : Nat
  owner : Nat
  target : Str
  data : List UInt8
  entries : Option (List (List UInt8 × Nat))

/-- A volume: its inodes and the number of the root (ext4.py:53, 77, 92). -/
structure Volume where
  inodes : Nat → Inode
  root : Nat

/-- The encoding of names: `bytes.decode` and `str.encode` (ext4.py:38, 92). -/
structure Codec where
  decode : List UInt8 → Option Str
  encode : Str → List UInt8

/-- One step of the library's `inode_at`; what it raises below a file is a parameter (used at ext4.py:77, 84, 108). -/
def step (v : Volume) (c : Codec) (below : PyErr) (i : Nat) (name : Str) : Except PyErr Nat :=
  match (v.inodes i).entries with
  | none => .error below
  | some es => match es.find? (fun e => decide (e.1 = c.encode name)) with
    | none => .error .fileNotFound
    | some e => .ok e.2

/-- The library's walk over the names of a path (used at ext4.py:77, 84, 108). -/
def walkFrom (v : Volume) (c : Codec) (below : PyErr) : Nat → List Str → Except PyErr Nat
  | i, [] => .ok i
  | i, n :: ns => match step v c below i n with
    | .error e => .error e
    | .ok j => walkFrom v c below j ns

/-- `inode_at` of the library: the inode at a path (used at ext4.py:77, 84, 108). -/
def inodeAt (v : Volume) (c : Codec) (below : PyErr) (path : Str) : Except PyErr Nat :=
  walkFrom v c below v.root ((split '/' path).filter (fun n => decide (n ≠ [])))

/-- `FileInfo` with the inode in `userdata` (ext4.py:59-67). -/
structure Info where
  size : Nat
  mtime : Nat
  mode : Nat
  linkname : Str
  owner : Nat
  inode : Nat
  deriving DecidableEq, Repr

/-- `_convert_ext4_directory_entry_to_file_info` (ext4.py:56-68). -/
def convert (v : Volume) (i : Nat) : Info := ⟨(v.inodes i).size, (v.inodes i).mtime, (v.inodes i).mode, [], (v.inodes i).owner, i⟩

/-- `exists` (ext4.py:75-80). -/
def exists_ (v : Volume) (c : Codec) (below : PyErr) (path : Str) : Except PyErr Bool :=
  match inodeAt v c below path with
  | .ok _ => .ok true
  | .error .fileNotFound => .ok false
  | .error e => .error e

/-- The names that are left out (ext4.py:94). -/
def special (name : List UInt8) : Bool := name = [0x2e] || name = [0x2e, 0x2e]

/-- The dictionary comprehension (ext4.py:91-95); a name that cannot be decoded raises `UnicodeDecodeError`. -/
def entriesDict (v : Volume) (c : Codec) : List (List UInt8 × Nat) → Dict Str Info → Except PyErr (Dict Str Info)
  | [], d => .ok d
  | (name, i) :: es, d =>
    if special name then entriesDict v c es d
    else match c.decode name with
      | none => .error .valueError
      | some s => entriesDict v c es (Dict.set d s (convert v i))

/-- `list` (ext4.py:82-99). -/
def list (v : Volume) (c : Codec) (below : PyErr) (path : Str) : Except PyErr (Option (Dict Str Info)) :=
  match inodeAt v c below path with
  | .error .fileNotFound => .ok none
  | .error e => .error e
  | .ok i => match (v.inodes i).entries with
    | none => .ok none
    | some es => (entriesDict v c es []).map some

/-- `lookup` (ext4.py:106-111). -/
def lookup (v : Volume) (c : Codec) (below : PyErr) (path : Str) : Except PyErr (Option Info) :=
  match inodeAt v c below path with
  | .ok i => .ok (some (convert v i))
  | .error .fileNotFound => .ok none
  | .error e => .error e

/-- `open` (ext4.py:118-121). -/
def openFile (v : Volume) (fi : Info) : List UInt8 := (v.inodes fi.inode).data

/-! ## Specification -/

/-- Following names through folders leads from one inode to another. -/
inductive Leads (v : Volume) (c : Codec) : Nat → List Str → Nat → Prop where
  | nil (i : Nat) : Leads v c i [] i
  | cons (i j k : Nat) (n : Str) (ns : List Str) (es : List (List UInt8 × Nat)) (h : (v.inodes i).entries = some es)
      (hm : (c.encode n, j) ∈ es) (hr : Leads v c j ns k) : Leads v c i (n :: ns) k

/-- Names are unique in every folder. -/
def Unique (v : Volume) : Prop := ∀ i es, (v.inodes i).entries = some es → ∀ name a b, (name, a) ∈ es → (name, b) ∈ es → a = b

/-- Encoding undoes decoding, and different strings have different codes. -/
structure Lawful (c : Codec) : Prop where
  back : ∀ b s, c.decode b = some s → c.encode s = b
  forth : ∀ s, c.decode (c.encode s) = some s

/-- Every entry of a folder is shown with everything that is known about it. -/
def Shows (v : Volume) (i : Nat) (fi : Info) : Prop :=
  fi.size = (v.inodes i).size ∧ fi.mtime = (v.inodes i).mtime ∧ fi.mode = (v.inodes i).mode ∧ fi.owner = (v.inodes i).owner ∧
    openFile v fi = (v.inodes i).data

/-- Links are shown with their targets. -/
def C151_statement : Prop :=
  ∀ (v : Volume) (c : Codec) (below : PyErr), Lawful c → Unique v → ∀ ns i, (∀ n ∈ ns, IsName n) → Leads v c v.root ns i →
    ∃ fi, lookup v c below (canonical ns) = .ok (some fi) ∧ fi.linkname = (v.inodes i).target

/-- Every folder can be listed. -/
def C150_statement : Prop :=
  ∀ (v : Volume) (c : Codec) (below : PyErr), Lawful c → Unique v → ∀ ns i es, (∀ n ∈ ns, IsName n) → Leads v c v.root ns i →
    (v.inodes i).entries = some es → ∃ d, list v c below (canonical ns) = .ok (some d)

/-! ## Proofs -/

theorem find_entry {es : List (List UInt8 × Nat)} {name : List UInt8} {j : Nat} (hu : ∀ a b, (name, a) ∈ es → (name, b) ∈ es → a = b)
    (hm : (name, j) ∈ es) : ∃ e, es.find? (fun e => decide (e.1 = name)) = some e ∧ e.2 = j := by
  cases hf : es.find? (fun e => decide (e.1 = name)) with
  | none =>
    have := List.find?_eq_none.mp hf (name, j) hm
    simp at this
  | some e =>
    have h1 := List.find?_some hf
    have h2 := List.mem_of_find?_eq_some hf
    simp only [decide_eq_true_eq] at h1
    refine ⟨e, rfl, hu e.2 j ?_ hm⟩
    rw [← h1]
    exact h2

theorem leads_walk {v : Volume} {c : Codec} (below : PyErr) (hu : Unique v) {i k : Nat} {ns : List Str} (h : Leads v c i ns k) :
    walkFrom v c below i ns = .ok k := by
  induction h with
  | nil i => rfl
  | cons i j k n ns es he hm _ ih =>
    obtain ⟨e, h1, h2⟩ := find_entry (fun a b => hu i es he _ a b) hm
    unfold walkFrom step
    rw [he]
    simp only
    rw [h1]
    simp only
    rw [h2]
    exact ih

theorem walk_leads {v : Volume} {c : Codec} {below : PyErr} : ∀ (ns : List Str) (i k : Nat), walkFrom v c below i ns = .ok k → Leads v c i ns k := by
  intro ns
  induction ns with
  | nil => intro i k h; cases h; exact .nil _
  | cons n ns ih =>
    intro i k h
    unfold walkFrom step at h
    cases he : (v.inodes i).entries with
    | none => rw [he] at h; cases h
    | some es =>
      rw [he] at h
      simp only at h
      cases hf : es.find? (fun e => decide (e.1 = c.encode n)) with
      | none => rw [hf] at h; cases h
      | some e =>
        rw [hf] at h
        have h1 := List.find?_some hf
        simp only [decide_eq_true_eq] at h1
        refine .cons i e.2 k n ns es he ?_ (ih _ _ h)
        rw [← h1]
        exact List.mem_of_find?_eq_some hf

theorem parts_canonical (ns : List Str) (h : ∀ n ∈ ns, IsName n) : (split '/' (canonical ns)).filter (fun n => decide (n ≠ [])) = ns := by
  cases ns with
  | nil => rfl
  | cons n ns =>
    show (split '/' ('/' :: join '/' (n :: ns))).filter _ = _
    rw [split_cons_eq, split_join '/' (n :: ns) (by simp) (fun p hp => (h p hp).2.1), List.filter_cons_of_neg (by simp),
      List.filter_eq_self.mpr]
    intro x hx
    simpa using (h x hx).1

/-- C150, lookups: what is found at a path is what following its names leads to, with its contents. -/
theorem C150_lookup (v : Volume) (c : Codec) (below : PyErr) (hu : Unique v) (ns : List Str) (hn : ∀ n ∈ ns, IsName n) (fi : Info) :
    lookup v c below (canonical ns) = .ok (some fi) ↔ ∃ i, Leads v c v.root ns i ∧ fi = convert v i := by
  unfold lookup inodeAt
  rw [parts_canonical ns hn]
  constructor
  · intro h
    cases hw : walkFrom v c below v.root ns with
    | ok i =>
      rw [hw] at h
      injection h with h
      injection h with h
      exact ⟨i, walk_leads ns _ _ hw, h.symm⟩
    | error e =>
      rw [hw] at h
      cases e <;> simp at h
  · rintro ⟨i, hl, rfl⟩
    rw [leads_walk below hu hl]

/-- What is found shows the inode. -/
theorem convert_shows (v : Volume) (i : Nat) : Shows v i (convert v i) := ⟨rfl, rfl, rfl, rfl, rfl⟩

theorem entriesDict_ok {v : Volume} {c : Codec} : ∀ (es : List (List UInt8 × Nat)) (d : Dict Str Info),
    (∀ e ∈ es, special e.1 = false → (c.decode e.1).isSome = true) → ∃ d', entriesDict v c es d = .ok d' := by
  intro es
  induction es with
  | nil => intro d _; exact ⟨d, rfl⟩
  | cons e es ih =>
    intro d h
    obtain ⟨name, i⟩ := e
    unfold entriesDict
    have hrest := fun x hx => h x (List.mem_cons_of_mem _ hx)
    cases hs : special name with
    | true => rw [if_pos rfl]; exact ih d hrest
    | false =>
      rw [if_neg (by simp)]
      obtain ⟨s, hs'⟩ := Option.isSome_iff_exists.mp (h (name, i) List.mem_cons_self hs)
      rw [hs']
      exact ih _ hrest

theorem entriesDict_get {v : Volume} {c : Codec} (hc : Lawful c) : ∀ (es : List (List UInt8 × Nat)) (d d' : Dict Str Info),
    (∀ name a b, (name, a) ∈ es → (name, b) ∈ es → a = b) → entriesDict v c es d = .ok d' → ∀ n fi,
    (d'.get? n = some fi ↔ (∃ i, (c.encode n, i) ∈ es ∧ special (c.encode n) = false ∧ fi = convert v i) ∨
      ((special (c.encode n) = true ∨ ∀ i, (c.encode n, i) ∉ es) ∧ d.get? n = some fi)) := by
  intro es
  induction es with
  | nil =>
    intro d d' _ h n fi
    cases h
    simp
  | cons e es ih =>
    intro d d' hu h n fi
    obtain ⟨name, j⟩ := e
    unfold entriesDict at h
    have hu' : ∀ name a b, (name, a) ∈ es → (name, b) ∈ es → a = b :=
      fun nm a b ha hb => hu nm a b (List.mem_cons_of_mem _ ha) (List.mem_cons_of_mem _ hb)
    cases hs : special name with
    | true =>
      rw [hs, if_pos rfl] at h
      rw [ih d d' hu' h n fi]
      constructor
      · rintro (⟨i, h1, h2, h3⟩ | ⟨h1, h2⟩)
        · exact Or.inl ⟨i, List.mem_cons_of_mem _ h1, h2, h3⟩
        · refine Or.inr ⟨?_, h2⟩
          by_cases hsp : special (c.encode n) = true
          · exact Or.inl hsp
          · rcases h1 with h1 | h1
            · exact Or.inl h1
            · right
              intro i hi
              rcases List.mem_cons.mp hi with hi | hi
              · injection hi with hi _
                rw [hi] at hsp
                exact hsp hs
              · exact h1 i hi
      · rintro (⟨i, h1, h2, h3⟩ | ⟨h1, h2⟩)
        · rcases List.mem_cons.mp h1 with h1 | h1
          · injection h1 with h1 _
            rw [h1, hs] at h2
            cases h2
          · exact Or.inl ⟨i, h1, h2, h3⟩
        · refine Or.inr ⟨?_, h2⟩
          rcases h1 with h1 | h1
          · exact Or.inl h1
          · exact Or.inr (fun i hi => h1 i (List.mem_cons_of_mem _ hi))
    | false =>
      rw [hs, if_neg (by simp)] at h
      cases hd : c.decode name with
      | none => rw [hd] at h; cases h
      | some s =>
        rw [hd] at h
        simp only at h
        have hname : c.encode s = name := hc.back name s hd
        rw [ih _ d' hu' h n fi]
        by_cases hns : n = s
        · subst hns
          rw [Dict.get?_set, if_pos rfl, hname]
          constructor
          · rintro (⟨i, h1, h2, h3⟩ | ⟨h1, h2⟩)
            · exact Or.inl ⟨i, List.mem_cons_of_mem _ h1, h2, h3⟩
            · exact Or.inl ⟨j, List.mem_cons_self, hs, (Option.some.inj h2).symm⟩
          · rintro (⟨i, h1, h2, h3⟩ | ⟨h1, h2⟩)
            · rcases List.mem_cons.mp h1 with h1 | h1
              · injection h1 with _ h1
                by_cases hin : ∃ i, (name, i) ∈ es
                · obtain ⟨i', hi'⟩ := hin
                  have := hu name i' j (List.mem_cons_of_mem _ hi') List.mem_cons_self
                  exact Or.inl ⟨i', hi', hs, by rw [h3, h1, this]⟩
                · exact Or.inr ⟨Or.inr (fun i hi => hin ⟨i, hi⟩), by rw [h3, h1]⟩
              · exact Or.inl ⟨i, h1, h2, h3⟩
            · rcases h1 with h1 | h1
              · rw [hs] at h1; cases h1
              · exact absurd List.mem_cons_self (h1 j)
        · have hne : c.encode n ≠ name := by
            intro hh
            have h1 := hc.forth n
            rw [hh, hd] at h1
            exact hns (Option.some.inj h1).symm
          rw [Dict.get?_set, if_neg (fun h => hns h.symm)]
          have hmem : ∀ i, (c.encode n, i) ∈ (name, j) :: es ↔ (c.encode n, i) ∈ es := by
            intro i
            constructor
            · intro hi
              rcases List.mem_cons.mp hi with hi | hi
              · injection hi with hi _
                exact absurd hi hne
              · exact hi
            · exact List.mem_cons_of_mem _
          simp only [hmem]

theorem leads_snoc {v : Volume} {c : Codec} {a i j : Nat} {n : Str} {ns : List Str} {es : List (List UInt8 × Nat)}
    (he : (v.inodes i).entries = some es) (hj : (c.encode n, j) ∈ es) (h : Leads v c a ns i) : Leads v c a (ns ++ [n]) j := by
  induction h with
  | nil i => exact .cons i j j n [] es he hj (.nil j)
  | cons a b k m ms es' hes' hm' _ ih => exact .cons a b j m (ms ++ [n]) es' hes' hm' (ih he)

/-- C150, listings, for folders whose names can be decoded: exactly the entries apart from `.` and `..` are listed, each as a lookup finds it.
What is missing: one name that cannot be decoded makes the whole folder unreadable. -/
theorem C150_partial (v : Volume) (c : Codec) (below : PyErr) (hc : Lawful c) (hu : Unique v) (ns : List Str) (hn : ∀ n ∈ ns, IsName n) (i : Nat)
    (es : List (List UInt8 × Nat)) (hl : Leads v c v.root ns i) (he : (v.inodes i).entries = some es)
    (hd : ∀ e ∈ es, special e.1 = false → (c.decode e.1).isSome = true) : ∃ d, list v c below (canonical ns) = .ok (some d) ∧
    (∀ n fi, d.get? n = some fi ↔ ∃ j, (c.encode n, j) ∈ es ∧ special (c.encode n) = false ∧ fi = convert v j) ∧
    ∀ n fi, IsName n → d.get? n = some fi → lookup v c below (canonical (ns ++ [n])) = .ok (some fi) := by
  obtain ⟨d, h1⟩ := entriesDict_ok (v := v) es [] hd
  have hget := entriesDict_get (v := v) hc es [] d (fun name a b => hu i es he name a b) h1
  have hget' : ∀ n fi, d.get? n = some fi ↔ ∃ j, (c.encode n, j) ∈ es ∧ special (c.encode n) = false ∧ fi = convert v j := by
    intro n fi
    rw [hget n fi]
    constructor
    · rintro (h | ⟨_, h⟩)
      · exact h
      · cases h
    · exact Or.inl
  refine ⟨d, ?_, hget', ?_⟩
  · unfold list inodeAt
    rw [parts_canonical ns hn, leads_walk below hu hl]
    simp only
    rw [he]
    simp only
    rw [h1]
    rfl
  · intro n fi hnm hg
    obtain ⟨j, hj1, _, hj3⟩ := (hget' n fi).mp hg
    refine (C150_lookup v c below hu (ns ++ [n]) ?_ fi).mpr ⟨j, ?_, hj3⟩
    · intro x hx
      rcases List.mem_append.mp hx with hx | hx
      · exact hn x hx
      · rw [List.mem_singleton.mp hx]; exact hnm
    · exact leads_snoc he hj1 hl

/-- C150: what is no folder has no listing. -/
theorem C150_file (v : Volume) (c : Codec) (below : PyErr) (hu : Unique v) (ns : List Str) (hn : ∀ n ∈ ns, IsName n) (i : Nat)
    (hl : Leads v c v.root ns i) (he : (v.inodes i).entries = none) : list v c below (canonical ns) = .ok none := by
  unfold list inodeAt
  rw [parts_canonical ns hn, leads_walk below hu hl]
  simp only
  rw [he]

theorem leads_missing {v : Volume} {c : Codec} (below : PyErr) (hu : Unique v) {a i : Nat} {ns : List Str} (n : Str) (rest : List Str)
    (es : List (List UInt8 × Nat)) (hl : Leads v c a ns i) (he : (v.inodes i).entries = some es) (hm : ∀ j, (c.encode n, j) ∉ es) :
    walkFrom v c below a (ns ++ n :: rest) = .error .fileNotFound := by
  induction hl with
  | nil k =>
    have hf : es.find? (fun e => decide (e.1 = c.encode n)) = none := by
      refine List.find?_eq_none.mpr ?_
      intro e hx
      simp only [decide_eq_true_eq]
      intro h1
      exact hm e.2 (by rw [← h1]; exact hx)
    show walkFrom v c below k (n :: rest) = _
    unfold walkFrom step
    rw [he]
    simp only
    rw [hf]
  | cons a b k m ms es' hes' hm' _ ih =>
    obtain ⟨e, hf, h2⟩ := find_entry (fun x y => hu a es' hes' (c.encode m) x y) hm'
    show walkFrom v c below a (m :: (ms ++ n :: rest)) = _
    unfold walkFrom step
    rw [hes']
    simp only
    rw [hf]
    simp only
    rw [h2]
    exact ih he

/-- C150: a name that a folder does not have is not found, and nothing below it. -/
theorem C150_missing (v : Volume) (c : Codec) (below : PyErr) (hu : Unique v) (ns : List Str) (n : Str) (rest : List Str)
    (hn : ∀ m ∈ ns ++ n :: rest, IsName m) (i : Nat) (es : List (List UInt8 × Nat)) (hl : Leads v c v.root ns i)
    (he : (v.inodes i).entries = some es) (hm : ∀ j, (c.encode n, j) ∉ es) :
    lookup v c below (canonical (ns ++ n :: rest)) = .ok none ∧ list v c below (canonical (ns ++ n :: rest)) = .ok none := by
  have hw := leads_missing below hu n rest es hl he hm
  constructor
  · unfold lookup inodeAt
    rw [parts_canonical _ hn, hw]
  · unfold list inodeAt
    rw [parts_canonical _ hn, hw]

/-- C150: `exists` and `lookup` agree. -/
theorem C150_exists (v : Volume) (c : Codec) (below : PyErr) (path : Str) :
    exists_ v c below path = (lookup v c below path).map Option.isSome := by
  unfold exists_ lookup
  cases inodeAt v c below path with
  | ok i => rfl
  | error e => cases e <;> rfl


/-- C151: everything but the target of links is shown. -/
theorem C151_partial (v : Volume) (c : Codec) (below : PyErr) (hu : Unique v) (ns : List Str) (i : Nat) (hn : ∀ n ∈ ns, IsName n)
    (hl : Leads v c v.root ns i) : ∃ fi, lookup v c below (canonical ns) = .ok (some fi) ∧ Shows v i fi ∧
      ((v.inodes i).target = [] → fi.linkname = (v.inodes i).target) :=
  ⟨convert v i, (C150_lookup v c below hu ns hn _).mpr ⟨i, hl, rfl⟩, convert_shows v i, fun h => by rw [h]; rfl⟩

/-- Strings are bytes here, three for each character, and other bytes cannot be decoded. -/
def wide : Codec where
  decode := fun b => (go b)
  encode := fun s => s.flatMap (fun ch => [UInt8.ofNat (ch.toNat / 65536), UInt8.ofNat (ch.toNat / 256), UInt8.ofNat ch.toNat])
where
  /-- Decoding. -/
  go : List UInt8 → Option Str
  | [] => some []
  | a :: b :: c :: rest =>
    if (Char.ofNat (a.toNat * 65536 + b.toNat * 256 + c.toNat)).toNat = a.toNat * 65536 + b.toNat * 256 + c.toNat then
      (go rest).map (Char.ofNat (a.toNat * 65536 + b.toNat * 256 + c.toNat) :: ·)
    else none
  | _ => none

theorem char_ofNat_toNat (ch : Char) : Char.ofNat ch.toNat = ch := Char.ofNat_toNat ch

theorem char_lt (ch : Char) : ch.toNat < 0x110000 := by
  have := ch.valid
  unfold Char.toNat
  rcases this with h | ⟨_, h⟩
  · have : ch.val.toNat < 0xd800 := h
    omega
  · exact h

theorem wide_cons (ch : Char) (s : Str) : wide.encode (ch :: s) =
    [UInt8.ofNat (ch.toNat / 65536), UInt8.ofNat (ch.toNat / 256), UInt8.ofNat ch.toNat] ++ wide.encode s := by
  simp [wide]

theorem wide_lawful : Lawful wide where
  back := by
    intro b
    show ∀ s, wide.go b = some s → wide.encode s = b
    fun_induction wide.go b with
    | case1 => intro s h; cases h; rfl
    | case2 x y z rest hv ih =>
      intro s h
      cases hg : wide.go rest with
      | none => rw [hg] at h; cases h
      | some t =>
        rw [hg] at h
        injection h with h
        rw [← h]
        have h1 := ih t hg
        simp only
        rw [wide_cons, hv]
        have hx := x.toNat_lt
        have hy := y.toNat_lt
        have hz := z.toNat_lt
        have e1 : (x.toNat * 65536 + y.toNat * 256 + z.toNat) / 65536 = x.toNat := by omega
        have e2 : (x.toNat * 65536 + y.toNat * 256 + z.toNat) / 256 = x.toNat * 256 + y.toNat := by omega
        rw [e1, e2]
        have f2 : UInt8.ofNat (x.toNat * 256 + y.toNat) = y := by
          apply UInt8.toNat_inj.mp
          rw [UInt8.toNat_ofNat']
          omega
        have f3 : UInt8.ofNat (x.toNat * 65536 + y.toNat * 256 + z.toNat) = z := by
          apply UInt8.toNat_inj.mp
          rw [UInt8.toNat_ofNat']
          omega
        rw [f2, f3, UInt8.ofNat_toNat]
        rw [h1]
        rfl
    | case3 => intro s h; cases h
    | case4 => intro s h; cases h
  forth := by
    intro s
    show wide.go (wide.encode s) = some s
    induction s with
    | nil => rfl
    | cons ch s ih =>
      rw [wide_cons]
      show wide.go (UInt8.ofNat (ch.toNat / 65536) :: UInt8.ofNat (ch.toNat / 256) :: UInt8.ofNat ch.toNat :: wide.encode s) = _
      have hch := char_lt ch
      have h1 : (UInt8.ofNat (ch.toNat / 65536)).toNat * 65536 + (UInt8.ofNat (ch.toNat / 256)).toNat * 256 + (UInt8.ofNat ch.toNat).toNat
          = ch.toNat := by
        rw [UInt8.toNat_ofNat', UInt8.toNat_ofNat', UInt8.toNat_ofNat']
        omega
      unfold wide.go
      rw [h1, char_ofNat_toNat, if_pos rfl, ih]
      rfl

/-- A volume with the link `a` to `b` in the root, and a name that is no text beside it if wanted. -/
def sample (bad : Bool) : Volume where
  inodes := fun i => if i = 2 then ⟨0o40755, 4096, 1, 0, [], [], some ([([0x2e], 2), ([0x2e, 0x2e], 2), (wide.encode "a".toList, 11)] ++
      (if bad then [([0xff], 12)] else []))⟩
    else ⟨0o120777, 1, 2, 0, "b".toList, [0x62], none⟩
  root := 2

theorem sample_unique (bad : Bool) : Unique (sample bad) := by
  intro i es h
  unfold sample at h
  simp only at h
  split at h
  · injection h with h
    subst h
    have key : ∀ e ∈ ([([0x2e], 2), ([0x2e, 0x2e], 2), (wide.encode "a".toList, 11)] ++ (if bad then [([0xff], 12)] else []) : List (List UInt8 × Nat)),
        ∀ e' ∈ ([([0x2e], 2), ([0x2e, 0x2e], 2), (wide.encode "a".toList, 11)] ++ (if bad then [([0xff], 12)] else []) : List (List UInt8 × Nat)),
        e.1 = e'.1 → e.2 = e'.2 := by
      cases bad <;> decide
    intro name a b ha hb
    exact key _ ha _ hb rfl
  · cases h

theorem sample_leads (bad : Bool) : Leads (sample bad) wide (sample bad).root ["a".toList] 11 := by
  refine .cons _ 11 _ _ _ _ rfl ?_ (.nil _)
  cases bad <;> decide

/-- C150 is violated: a name that is no text makes the folder unreadable. -/
theorem C150_violated : ¬ C150_statement := by
  intro h
  obtain ⟨d, hd⟩ := h (sample true) wide .fileNotFound wide_lawful (sample_unique true) [] 2 _ (by simp) (.nil _) rfl
  have : list (sample true) wide .fileNotFound (canonical []) = .error .valueError := by decide +kernel
  rw [this] at hd
  cases hd

/-- C151 is violated: links have no target. -/
theorem C151_violated : ¬ C151_statement := by
  intro h
  obtain ⟨fi, h1, h2⟩ := h (sample false) wide .fileNotFound wide_lawful (sample_unique false) ["a".toList] 11 (by unfold IsName; decide)
    (sample_leads false)
  obtain ⟨i, _, h4⟩ := (C150_lookup (sample false) wide .fileNotFound (sample_unique false) ["a".toList] (by unfold IsName; decide) fi).mp h1
  rw [h4] at h2
  cases h2

/-- The hypotheses of `C150_partial` can be met. -/
example : ∃ d, list (sample false) wide .fileNotFound (canonical []) = .ok (some d) ∧ (d.get? "a".toList).isSome = true := by
  obtain ⟨d, h1, h2, _⟩ := C150_partial (sample false) wide .fileNotFound wide_lawful (sample_unique false) [] (by simp) 2 _ (.nil _) rfl
    (by decide +kernel)
  refine ⟨d, h1, ?_⟩
  rw [(h2 "a".toList (convert (sample false) 11)).mpr ⟨11, by decide +kernel, by decide +kernel, rfl⟩]
  rfl

/-- A name that is missing. -/
example : lookup (sample false) wide .fileNotFound (canonical ["b".toList]) = .ok none :=
  (C150_missing (sample false) wide .fileNotFound (sample_unique false) [] "b".toList [] (by unfold IsName; decide) 2 _ (.nil _) rfl (by
    have : ∀ e ∈ ((sample false).inodes 2).entries.getD [], e.1 ≠ wide.encode "b".toList := by decide +kernel
    intro j hj
    exact this _ hj rfl)).1

end Verif.Ext4
