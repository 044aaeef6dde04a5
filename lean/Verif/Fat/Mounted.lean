import Verif.Fat.Tree

/-!
# C195: paths of a mounted FAT image
(core/ratarmountcore/_external/pyfatfs/FATDirectoryEntry.py:407-481, 551-640; core/ratarmountcore/mountsource/formats/fat.py:49-128)
-/

namespace Verif.FatImage

open Verif.Py Verif.Bin Verif.FileSpec
open Verif.FatTable (Kind parseFat)
open Verif.FatNames (Slot Piece DirEntry byteAt isLfn addPiece mkEntry parseSlots parseClusters)
open Verif.FatSource (DEnt Vol)

/-! ## names -/

theorem decode_char (c : Char) (r : List Nat) : decode16 (encodeChar c ++ r) = (decode16 r).map (c :: ·) := by
  have hv : c.toNat < 0xD800 ∨ (0xDFFF < c.toNat ∧ c.toNat < 0x110000) := by
    have := c.valid
    unfold UInt32.isValidChar Nat.isValidChar at this
    exact this
  unfold encodeChar
  split
  · next h =>
    rw [List.singleton_append, decode16.eq_def]
    simp only
    rw [if_pos (by omega), Char.ofNat_toNat]
  · next h =>
    rw [List.cons_append, List.cons_append, List.nil_append, decode16.eq_def]
    simp only
    rw [if_neg (by omega), if_pos (by omega), if_pos (by omega)]
    have : 0x10000 + (0xD800 + (c.toNat - 0x10000) / 0x400 - 0xD800) * 0x400 + (0xDC00 + (c.toNat - 0x10000) % 0x400 - 0xDC00) = c.toNat := by
      omega
    rw [this, Char.ofNat_toNat]

/-- Every text is decoded again. -/
theorem decode_encode (s : Str) : decode16 (encode16 s) = .ok s := by
  induction s with
  | nil => rw [encode16, List.flatMap_nil, decode16.eq_def]
  | cons c s ih =>
    rw [encode16, List.flatMap_cons, decode_char]
    show (decode16 (encode16 s)).map _ = _
    rw [ih]
    rfl

/-- What the code knows of an entry. -/
def Item.seen (x : Codec) (i : Item) : DEnt where
  short := i.alias x
  long := i.long
  attr := i.attr
  cluster := i.first
  size := i.size
  mtime := x.stamp (FatDates.deserializeDate i.date) (FatDates.deserializeTime i.time)

theorem alias_shown {x : Codec} (hx : x.space (x.dec 0x20) = true) {i : Item} (h : i.Ok x) :
    FatSource.shortStr x.dec x.space i.stored = i.alias x := by
  obtain ⟨hb1, hb2, hb3, hb4, hb5⟩ := h.base
  have main := FatSource.C117_shown x.dec x.space i.base i.ext hx hb2 h.ext.1 hb5 h.ext.2 hb4 hb1
  unfold Item.alias
  rw [← main]
  unfold Item.stored
  cases hb : i.base with
  | nil => exact absurd hb hb1
  | cons b r =>
    rw [storedBase]
    split
    · next he =>
      subst he
      rw [List.cons_append, List.cons_append, FatSource.C117_first]
      rfl
    · rfl

theorem entryOf_raw {x : Codec} (hx : x.space (x.dec 0x20) = true) {i : Item} (h : i.Ok x) : entryOf x i.raw i.long = i.seen x := by
  obtain ⟨h1, h2, h3, h4, h5⟩ := fields_short h
  unfold entryOf Item.seen Item.raw
  simp only
  rw [short_take h, alias_shown hx h, attr_short h, h1, h2, h3, h4, h5, Nat.shiftLeft_eq]
  congr 1
  omega

theorem decodeAll_raw {x : Codec} (hx : x.space (x.dec 0x20) = true) : ∀ items : List Item, (∀ i ∈ items, i.Ok x) →
    decodeAll x (items.map Item.raw) = .ok (items.map (Item.seen x)) := by
  intro items
  induction items with
  | nil => intro _; rfl
  | cons i items ih =>
    intro h
    have hd : decodeLong i.raw.long = .ok i.long := by
      unfold Item.raw
      cases hn : i.long with
      | none => rfl
      | some n =>
        show (decode16 (encode16 n)).map some = _
        rw [decode_encode]
        rfl
    rw [List.map_cons, decodeAll, hd]
    simp only
    rw [ih (fun y hy => h y (List.mem_cons_of_mem _ hy)), entryOf_raw hx (h i List.mem_cons_self)]
    rfl

/-! ## folders -/

/-- The entries of a folder as the code sees them. -/
def seen (x : Codec) (es : List (Item × Option Tree)) : List DEnt := es.map (fun e => e.1.seen x)

theorem visible_iff {x : Codec} {es : List (Item × Option Tree)} (h : FolderOk x es) (d : DEnt) :
    FatSource.Visible (seen x es) d ↔ ∃ e ∈ es, e.2.isSome ∧ d = e.1.seen x := by
  unfold FatSource.Visible seen
  constructor
  · rintro ⟨hm, h1, h2, h3⟩
    obtain ⟨e, he, rfl⟩ := List.mem_map.mp hm
    refine ⟨e, he, ?_, rfl⟩
    cases hs : e.2 with
    | some t => rfl
    | none =>
      exfalso
      rcases (h.hidden e he).mp hs with hh | hh | hh
      · exact h1 hh
      · exact h2 hh
      · exact hh h3
  · rintro ⟨e, he, hs, rfl⟩
    have hn : ¬ e.1.Hidden x := fun hh => by
      rw [(h.hidden e he).mpr hh] at hs
      cases hs
    refine ⟨List.mem_map.mpr ⟨e, he, rfl⟩, fun hh => hn (.inl hh), fun hh => hn (.inr (.inl hh)), ?_⟩
    exact Classical.byContradiction fun hh => hn (.inr (.inr hh))

theorem search_child {v : Vol} {x : Codec} {e : DEnt} {es : List (Item × Option Tree)} (hd : e.attr &&& 0x10 ≠ 0)
    (hv : v e.cluster = .ok (seen x es)) (h : FolderOk x es) (n : Str) :
    FatSource.searchEntry v e n = match child x es n with
      | some c => .ok (c.1.seen x)
      | none => .error (.os FatSource.ENOENT) := by
  obtain ⟨ents, he⟩ : ∃ ents, FatSource.getEntries v e = .ok ents := by
    unfold FatSource.getEntries
    rw [if_pos ((FatSource.isDirectory_iff e).mpr hd), hv]
    exact ⟨_, rfl⟩
  obtain ⟨-, raw, hr, hm⟩ := FatSource.mem_getEntries he
  rw [hv, Except.ok.injEq] at hr
  subst hr
  unfold FatSource.searchEntry
  rw [he]
  simp only
  cases hc : child x es n with
  | none =>
    simp only
    have : ents.find? (FatSource.DEnt.hasName n) = none := by
      rw [List.find?_eq_none]
      intro d hdm hname
      obtain ⟨a, ha, hs, rfl⟩ := (visible_iff h d).mp ((hm d).mp hdm)
      unfold child at hc
      rw [List.find?_eq_none] at hc
      have hN : a.1.Named x n := (FatSource.hasName_iff _ _).mp hname
      exact hc a ha (by rw [hs]; simpa using hN)
    rw [this]
  | some c =>
    simp only
    unfold child at hc
    have hcm := List.mem_of_find?_eq_some hc
    have hcp := List.find?_some hc
    rw [Bool.and_eq_true, decide_eq_true_eq] at hcp
    cases hf : ents.find? (FatSource.DEnt.hasName n) with
    | none =>
      rw [List.find?_eq_none] at hf
      exact absurd ((FatSource.hasName_iff (c.1.seen x) n).mpr hcp.2)
        (hf (c.1.seen x) ((hm _).mpr ((visible_iff h _).mpr ⟨c, hcm, hcp.1, rfl⟩)))
    | some d =>
      simp only
      obtain ⟨a, ha, hs, rfl⟩ := (visible_iff h d).mp ((hm d).mp (List.mem_of_find?_eq_some hf))
      have hN : a.1.Named x n := (FatSource.hasName_iff _ _).mp (List.find?_some hf)
      rw [h.names a ha c hcm n hs hcp.1 hN hcp.2]

/-! ## trees -/

/-- The code's view of an entry is right. -/
def Shows (k : Disk) (x : Codec) (v : Vol) (e : DEnt) : Tree → Prop
  | .file _ => e.attr &&& 0x10 = 0
  | .folder es => e.attr &&& 0x10 ≠ 0 ∧ v e.cluster = .ok (seen x es) ∧ FolderOk x es ∧ ∀ c ∈ es, ∀ t, c.2 = some t → Stored k x c.1 t

/-- The folders that the mounted image gives. -/
def Serves (k : Disk) (x : Codec) (v : Vol) : Prop := ∀ (i : Item) (t : Tree), i.Ok x → Stored k x i t → Shows k x v (i.seen x) t

theorem serves {k : Disk} {x : Codec} (hx : x.space (x.dec 0x20) = true) (h : k.Ok) (r : List Nat) (root : List DirEntry) (dirty : Bool) :
    Serves k x (Mounted.vol ⟨k.volume, k.fat ++ r, root, dirty⟩ k.image x) := by
  intro i t hi hs
  cases hs with
  | file h1 => exact h1
  | @folder _ cs es h1 h2 h3 h4 h5 h6 =>
    refine ⟨h1, ?_, h5, h6⟩
    unfold Mounted.vol
    have hne : (i.seen x).cluster ≠ rootNumber := by
      have := hi.first
      show i.first ≠ 2 ^ 32
      omega
    rw [if_neg hne]
    show (readFolder k.volume (k.fat ++ r) k.image i.first).bind (decodeAll x) = _
    have hok : ∀ j ∈ es.map Prod.fst, j.Ok x := by
      intro j hj
      obtain ⟨e, he, rfl⟩ := List.mem_map.mp hj
      exact h5.items e he
    rw [readFolder_layout (x := x) h r h2 h3 h4 hok]
    show decodeAll x _ = _
    rw [decodeAll_raw hx _ hok, List.map_map]
    rfl

theorem descend_at {k : Disk} {x : Codec} {v : Vol} (hv : Serves k x v) : ∀ (ns : List Str) (i : Item) (t : Tree) (e : DEnt), Shows k x v e t →
    match Tree.at x i t ns with
    | none => FatSource.descend v ns e = .error (.os FatSource.ENOENT) ∨ FatSource.descend v ns e = .error (.os FatSource.ENOTDIR)
    | some (j, u) => ∃ e', FatSource.descend v ns e = .ok e' ∧ Shows k x v e' u ∧ (ns = [] → e' = e) ∧
        (ns ≠ [] → e' = j.seen x ∧ Stored k x j u ∧ j.Ok x ∧ ¬ j.Hidden x) := by
  intro ns
  induction ns with
  | nil =>
    intro i t e h
    exact ⟨e, rfl, h, fun _ => rfl, fun hh => absurd rfl hh⟩
  | cons n ns ih =>
    intro i t e h
    cases t with
    | file c =>
      rw [Tree.at]
      simp only
      rw [FatSource.descend, if_neg (fun hh => (FatSource.isDirectory_iff e).mp hh h)]
      exact .inr rfl
    | folder es =>
      obtain ⟨h1, h2, h3, h4⟩ := h
      rw [Tree.at, FatSource.descend, if_pos ((FatSource.isDirectory_iff e).mpr h1), search_child h1 h2 h3 n]
      cases hc : child x es n with
      | none => exact .inl rfl
      | some c =>
        obtain ⟨j, o⟩ := c
        have hcm := List.mem_of_find?_eq_some hc
        have hcp := List.find?_some hc
        rw [Bool.and_eq_true, decide_eq_true_eq] at hcp
        cases o with
        | none => exact absurd hcp.1 (by simp)
        | some u =>
          simp only
          have hst := h4 _ hcm u rfl
          have hok := h3.items _ hcm
          have hnh : ¬ j.Hidden x := fun hh => by
            have := (h3.hidden _ hcm).mpr hh
            cases this
          have key := ih j u (j.seen x) (hv j u hok hst)
          cases ha : Tree.at x j u ns with
          | none => rw [ha] at key; exact key
          | some p =>
            obtain ⟨j', u'⟩ := p
            rw [ha] at key
            simp only at key ⊢
            obtain ⟨e', k1, k2, k3, k4⟩ := key
            refine ⟨e', k1, k2, fun hh => (List.cons_ne_nil _ _ hh).elim, fun _ => ?_⟩
            by_cases hn : ns = []
            · subst hn
              rw [Tree.at, Option.some.injEq, Prod.mk.injEq] at ha
              obtain ⟨rfl, rfl⟩ := ha
              exact ⟨k3 rfl, hst, hok, hnh⟩
            · exact k4 hn

/-! ## C195 -/

/-- What is under a path of the disk; the root folder has no entry, so nothing is said of its times. -/
def found (x : Codec) (es : List (Item × Option Tree)) : List Str → Option (Option Item × Tree)
  | [] => some (none, .folder es)
  | n :: ns => match child x es n with
    | some (i, some t) => (Tree.at x i t ns).map (fun p => (some p.1, p.2))
    | _ => none

/-- The time of an entry. -/
def timeOf (x : Codec) (i : Item) : Nat := x.stamp (FatDates.deserializeDate i.date) (FatDates.deserializeTime i.time)

theorem root_shows {k : Disk} {x : Codec} (hx : x.space (x.dec 0x20) = true) {es : List (Item × Option Tree)} (hh : k.Holds x es)
    (v : Fat.Volume) (fat : List Nat) (dirty : Bool) :
    Shows k x (Mounted.vol ⟨v, fat, (es.map Prod.fst).map Item.raw, dirty⟩ k.image x) (rootEntry x) (.folder es) := by
  refine ⟨by show 0x10 &&& 0x10 ≠ 0; decide, ?_, hh.ok, hh.below_⟩
  unfold Mounted.vol
  rw [if_pos (show (rootEntry x).cluster = rootNumber from rfl)]
  show decodeAll x ((es.map Prod.fst).map Item.raw) = _
  rw [decodeAll_raw hx _ (by
    intro j hj
    obtain ⟨e, he, rfl⟩ := List.mem_map.mp hj
    exact hh.ok.items e he), List.map_map]
  rfl

theorem getEntry_found {k : Disk} {x : Codec} (hx : x.space (x.dec 0x20) = true) (h : k.Ok) {es : List (Item × Option Tree)} (hh : k.Holds x es)
    {m : Mounted} (hm : mount k.image = .ok m) (ns : List Str) (hn : ∀ n ∈ ns, Index.IsName n) :
    match found x es ns with
    | none => FatSource.getEntry (m.vol k.image x) (rootEntry x) (Index.canonical ns) = .error (.os FatSource.ENOENT) ∨
        FatSource.getEntry (m.vol k.image x) (rootEntry x) (Index.canonical ns) = .error (.os FatSource.ENOTDIR)
    | some (none, u) => FatSource.getEntry (m.vol k.image x) (rootEntry x) (Index.canonical ns) = .ok (rootEntry x) ∧
        Shows k x (m.vol k.image x) (rootEntry x) u
    | some (some j, u) => FatSource.getEntry (m.vol k.image x) (rootEntry x) (Index.canonical ns) = .ok (j.seen x) ∧
        Shows k x (m.vol k.image x) (j.seen x) u ∧ Stored k x j u ∧ j.Ok x ∧ ¬ j.Hidden x := by
  obtain ⟨r, dirty, hm'⟩ := C195_mounts k x es h hh
  rw [hm, Except.ok.injEq] at hm'
  subst hm'
  have hroot := root_shows hx hh k.volume (k.fat ++ r) dirty
  have hserve := serves hx h r ((es.map Prod.fst).map Item.raw) dirty
  generalize Mounted.vol ⟨k.volume, k.fat ++ r, (es.map Prod.fst).map Item.raw, dirty⟩ k.image x = v at hroot hserve ⊢
  unfold FatSource.getEntry
  rw [FatSource.parts_canonical ns hn]
  cases ns with
  | nil => exact ⟨rfl, hroot⟩
  | cons n ns =>
    have key := descend_at hserve (n :: ns) ⟨[], none, [], [], [], [], 0, [], 0, 0, 0, 0⟩ (.folder es) (rootEntry x) hroot
    rw [found]
    rw [Tree.at] at key
    cases hc : child x es n with
    | none => rw [hc] at key; exact key
    | some c =>
      obtain ⟨i, o⟩ := c
      rw [hc] at key
      cases o with
      | none => exact key
      | some t =>
        simp only at key ⊢
        cases ha : Tree.at x i t ns with
        | none => rw [ha] at key; exact key
        | some p =>
          obtain ⟨j, u⟩ := p
          rw [ha] at key
          simp only at key ⊢
          obtain ⟨e', k1, k2, -, k4⟩ := key
          obtain ⟨rfl, k5, k6, k7⟩ := k4 (List.cons_ne_nil _ _)
          exact ⟨k1, k2, k5, k6, k7⟩

/-- **C195**: a path that is not on the disk is not shown. -/
theorem C195_missing (k : Disk) (x : Codec) (hx : x.space (x.dec 0x20) = true) (es : List (Item × Option Tree)) (h : k.Ok) (hh : k.Holds x es)
    (m : Mounted) (hm : mount k.image = .ok m) (ns : List Str) (hn : ∀ n ∈ ns, Index.IsName n) (hf : found x es ns = none) :
    m.lookup k.image x (Index.canonical ns) = .ok none ∧ m.list k.image x (Index.canonical ns) = .ok none := by
  have key := getEntry_found hx h hh hm ns hn
  rw [hf] at key
  simp only at key
  unfold Mounted.lookup Mounted.list FatSource.lookup FatSource.list
  rw [FatSource.normpath_canonical ns hn]
  rcases key with key | key <;> rw [key] <;> exact ⟨rfl, rfl⟩

/-- **C195**: a folder of the disk is a folder, and it lists its entries under their long names if they have some. -/
theorem C195_folder (k : Disk) (x : Codec) (hx : x.space (x.dec 0x20) = true) (es : List (Item × Option Tree)) (h : k.Ok) (hh : k.Holds x es)
    (m : Mounted) (hm : mount k.image = .ok m) (ns : List Str) (hn : ∀ n ∈ ns, Index.IsName n) (i : Option Item)
    (cs : List (Item × Option Tree)) (hf : found x es ns = some (i, .folder cs)) :
    (∃ fi, m.lookup k.image x (Index.canonical ns) = .ok (some fi) ∧ fi.mode = 0o40777 ∧ fi.path = Index.canonical ns ∧
      ∀ j, i = some j → fi.mtime = timeOf x j) ∧
    ∃ names, m.list k.image x (Index.canonical ns) = .ok (some names) ∧
      names.Perm ((cs.filter (fun c => c.2.isSome)).map (fun c => c.1.long.getD (c.1.alias x))) := by
  have key := getEntry_found hx h hh hm ns hn
  rw [hf] at key
  obtain ⟨e, he, hs, ht⟩ : ∃ e, FatSource.getEntry (m.vol k.image x) (rootEntry x) (Index.canonical ns) = .ok e ∧
      Shows k x (m.vol k.image x) e (.folder cs) ∧ ∀ j, i = some j → e.mtime = timeOf x j := by
    cases i with
    | none => exact ⟨_, key.1, key.2, fun j hj => by cases hj⟩
    | some j => exact ⟨_, key.1, key.2.1, fun j' hj => by cases hj; rfl⟩
  obtain ⟨h1, h2, h3, h4⟩ := hs
  have hdir := (FatSource.isDirectory_iff e).mpr h1
  constructor
  · refine ⟨FatSource.convert e (Index.canonical ns), ?_, ?_, rfl, ht⟩
    · unfold Mounted.lookup FatSource.lookup
      rw [he]
    · unfold FatSource.convert
      rw [hdir]
      rfl
  · have hg : FatSource.getEntries (m.vol k.image x) e = .ok
        ((seen x cs).filter (fun d => !(d.isSpecial || d.isVolumeId) && d.isDirectory) ++
          (seen x cs).filter (fun d => !(d.isSpecial || d.isVolumeId) && !d.isDirectory)) := by
      unfold FatSource.getEntries
      rw [if_pos hdir, h2]
      rfl
    refine ⟨((seen x cs).filter (fun d => !(d.isSpecial || d.isVolumeId) && d.isDirectory) ++
          (seen x cs).filter (fun d => !(d.isSpecial || d.isVolumeId) && !d.isDirectory)).map FatSource.DEnt.display, ?_, ?_⟩
    · unfold Mounted.list FatSource.list
      rw [FatSource.normpath_canonical ns hn, he]
      show (match FatSource.getEntries (m.vol k.image x) e with
        | .ok es => .ok (some (es.map FatSource.DEnt.display))
        | .error (.os n) => if n = FatSource.ENOENT ∨ n = FatSource.ENOTDIR then .ok none else .error (.os n)
        | .error x => .error x : Except PyErr (Option (List Str))) = _
      rw [hg]
    · have split : ∀ l : List DEnt, (l.filter (fun d => !(d.isSpecial || d.isVolumeId) && d.isDirectory) ++
          l.filter (fun d => !(d.isSpecial || d.isVolumeId) && !d.isDirectory)).Perm (l.filter (fun d => !(d.isSpecial || d.isVolumeId))) := by
        intro l
        have e1 : l.filter (fun d => !(d.isSpecial || d.isVolumeId) && d.isDirectory) =
            (l.filter (fun d => !(d.isSpecial || d.isVolumeId))).filter (fun d => d.isDirectory) := by
          rw [List.filter_filter]
          congr 1
          funext d
          rw [Bool.and_comm]
        have e2 : l.filter (fun d => !(d.isSpecial || d.isVolumeId) && !d.isDirectory) =
            (l.filter (fun d => !(d.isSpecial || d.isVolumeId))).filter (fun d => !d.isDirectory) := by
          rw [List.filter_filter]
          congr 1
          funext d
          rw [Bool.and_comm]
        rw [e1, e2]
        exact List.filter_append_perm _ _
      refine ((split _).map _).trans ?_
      unfold seen
      rw [List.filter_map, List.map_map]
      have : cs.filter ((fun d : DEnt => !(d.isSpecial || d.isVolumeId)) ∘ fun e => e.1.seen x) = cs.filter (fun c => c.2.isSome) := by
        apply List.filter_congr
        intro c hc
        have := h3.hidden c hc
        unfold Item.Hidden at this
        simp only [Function.comp, FatSource.DEnt.isSpecial, FatSource.DEnt.isVolumeId, Item.seen]
        cases hc2 : c.2 with
        | none =>
          have hh := this.mp hc2
          rcases hh with hh | hh | hh
          · simp [hh]
          · simp [hh]
          · have : c.1.attr &&& 8 > 0 := by omega
            simp [this]
        | some t =>
          have hh : ¬ _ := fun hh => by
            have := this.mpr hh
            rw [hc2] at this
            cases this
          rw [not_or, not_or, Classical.not_not] at hh
          simp [hh.1, hh.2.1, hh.2.2]
      rw [this]
      exact List.Perm.refl _

/-- **C195**: a file of the disk has its size and its time, and every history of calls on it gives what a file in memory with its
content gives. -/
theorem C195_file_partial (k : Disk) (x : Codec) (hx : x.space (x.dec 0x20) = true) (es : List (Item × Option Tree)) (h : k.Ok) (hh : k.Holds x es)
    (m : Mounted) (hm : mount k.image = .ok m) (ns : List Str) (hn : ∀ n ∈ ns, Index.IsName n) (i : Option Item)
    (content : Data) (hf : found x es ns = some (i, .file content)) :
    ∃ j, i = some j ∧ m.lookup k.image x (Index.canonical ns) = .ok (some ⟨content.length, timeOf x j, 0o100777, Index.canonical ns⟩) ∧
      m.list k.image x (Index.canonical ns) = .ok none ∧
      ∀ ops, (FatChain.ClampIO.mk content 0).accepts ops = true →
        m.openRun k.image x ⟨content.length, timeOf x j, 0o100777, Index.canonical ns⟩ ops = .ok ((FatChain.ClampIO.mk content 0).run ops) := by
  have key := getEntry_found hx h hh hm ns hn
  rw [hf] at key
  cases i with
  | none =>
    exfalso
    have : rootEntry x = rootEntry x ∧ (0x10 : Nat) &&& 0x10 = 0 := ⟨rfl, key.2⟩
    exact absurd this.2 (by decide)
  | some j =>
    obtain ⟨k1, k2, k3, k4, k5⟩ := key
    have hdir : (j.seen x).isDirectory = false := by
      cases hd : (j.seen x).isDirectory with
      | false => rfl
      | true => exact absurd k2 ((FatSource.isDirectory_iff _).mp hd)
    obtain ⟨r, dirty, hm'⟩ := C195_mounts k x es h hh
    rw [hm, Except.ok.injEq] at hm'
    cases k3 with
    | @file _ cs _ h1 h2 h3 h4 h5 =>
      have hpos : 0 < k.bps * k.spc := Nat.mul_pos (by have := bps_pos h; omega) (spc_pos h)
      have hcl : ∀ c ∈ cs, readCluster k.volume k.image c = k.cluster c := by
        intro c hc
        obtain ⟨a1, a2⟩ := cluster_image h (h3 c hc)
        unfold readCluster
        rw [if_neg a1]
        exact a2
      have hstored : FatChain.Stored (m.files k.image) (fileEntry (j.seen x)) cs content := by
        rw [hm']
        refine ⟨hpos, fun hs => ?_, fun c hc => ?_, h4, ?_⟩
        · show FatChain.Chain (kindOf (typeOf k.kind)) (k.fat ++ r) j.first cs
          rw [kindOf_typeOf]
          exact chain_append r (h2 hs)
        · show (readCluster k.volume k.image c).length = _
          rw [hcl c hc, cluster_length h (h3 c hc)]
          rfl
        · rw [h5]
          show _ = (cs.flatMap (readCluster k.volume k.image)).take j.size
          congr 1
          rw [List.flatMap_def, List.flatMap_def, List.map_congr_left hcl]
      have hlen : content.length = j.size := FatChain.content_length hstored
      refine ⟨j, rfl, ?_, ?_, ?_⟩
      · unfold Mounted.lookup FatSource.lookup
        rw [k1]
        simp only
        unfold FatSource.convert
        rw [hdir, hlen]
        rfl
      · unfold Mounted.list FatSource.list
        rw [FatSource.normpath_canonical ns hn, k1]
        have : FatSource.getEntries (m.vol k.image x) (j.seen x) = .error (.os FatSource.ENOTDIR) := by
          unfold FatSource.getEntries
          rw [hdir]
          rfl
        show (match FatSource.getEntries (m.vol k.image x) (j.seen x) with
          | .ok es => .ok (some (es.map FatSource.DEnt.display))
          | .error (.os n) => if n = FatSource.ENOENT ∨ n = FatSource.ENOTDIR then .ok none else .error (.os n)
          | .error x => .error x : Except PyErr (Option (List Str))) = _
        rw [this]
        rfl
      · intro ops hops
        unfold Item.Hidden at k5
        rw [not_or, not_or, Classical.not_not] at k5
        have hsp : (j.seen x).isSpecial = false := by
          simp [FatSource.DEnt.isSpecial, Item.seen, k5.1, k5.2.1]
        have hvol : (j.seen x).isVolumeId = false := by
          simp [FatSource.DEnt.isVolumeId, Item.seen, k5.2.2]
        unfold Mounted.openRun FatSource.open_
        simp only
        rw [k1]
        simp only
        rw [hdir, hsp, hvol]
        show Except.ok ((FatChain.openFile (fileEntry (j.seen x))).run (m.files k.image) (fileEntry (j.seen x)) ops) = _
        rw [FatChain.C68_open_partial hstored ops hops]

end Verif.FatImage
