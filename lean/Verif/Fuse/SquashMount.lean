import Verif.Fuse.LibMount
import Verif.Formats.SquashFSRows

/-!
# C202: a SquashFS image that is mounted shows its files with their bytes

The walk over the inodes (`Verif.Formats.SquashFSRows`), the rows, the index, the versions layer, the files that read block by block
(`Verif.Formats.SquashFS`), and the FUSE operations (`Verif.Fuse.LibMount`) are put together. How PySquashfsImage reads inodes, folders and blocks
is not modelled: an image is given by what it reads.
-/

namespace Verif.Fuse.SquashMount

open Verif.Py Verif.Index Verif.Fuse.IndexMount
open Verif.FileSpec (BytesIO FileOut)
open Verif.Tar (Bytes)
open Verif.SquashFS (Image SqFile joinInode splitInode openFile Stored)
open Verif.SquashFSRows (Kind Node Item Reach Sound Usual iterate position sizeOf_ modeOf linkOf)
open Verif.Fuse.LibMount (Lib Mount Serves mopen mread calls start)
open Verif.Fuse.ObjectMount (Listed)
open Verif.Fuse.TarMount (Call mreaddir mlookup)
open Verif.Compose (dotVersions)

/-! ## model -/

/-- The tuple of `_convert_to_row` at a position (squashfs.py:419-457), without `transform`. -/
def columnsAt (x : Item) (p : Nat) : FRow :=
  ⟨(splitPath (normpath (canonical x.names))).1, (splitPath (normpath (canonical x.names))).2, p, 0, sizeOf_ x.inode, x.inode.time,
    modeOf x.inode, linkOf x.inode, 0, 0, false⟩

/-- The tuple for what the iteration yields (squashfs.py:375, 419-457). -/
def columnsOf (x : Item) : Except PyErr FRow :=
  match joinInode x.startBlock x.offset with
  | .error e => .error e
  | .ok p => .ok (columnsAt x p)

/-- The loop of `_create_index` (squashfs.py:460-465). -/
def columns : List Item → Except PyErr (List FRow)
  | [] => .ok []
  | x :: xs =>
    match columnsOf x with
    | .error e => .error e
    | .ok r =>
      match columns xs with
      | .error e => .error e
      | .ok rs => .ok (r :: rs)

/-- `_create_index` (squashfs.py:460-465). -/
def index (b o : Nat) (i : SquashFSRows.Inode) (es : List Node) : Except PyErr (List FRow) := columns (iterate b o i es)

/-- The mount source; all rows are inserted at once (squashfs.py:465). -/
def src (rs : List FRow) : Compose.Source := source rs [toRows rs]

/-- A file (squashfs.py:141-180): its inode, the addresses of its blocks, and where it is. -/
structure File where
  inode : SquashFS.Inode
  addresses : List Int
  file : SqFile UInt8

/-- `open` of the mount source (squashfs.py:385-386, 487): the position is split, the inode is read, and a file is made of it. -/
def openRow (img : Image UInt8) (readInode : Nat × Nat → Except PyErr SquashFS.Inode) (r : FRow) : Except PyErr File :=
  match readInode (splitInode r.oh) with
  | .error e => .error e
  | .ok ino =>
    match openFile img ino with
    | .error e => .error e
    | .ok (as, f) => .ok ⟨ino, as, f⟩

/-- `seek(offset)` and `read(size)` (squashfs.py:225-268). -/
def pread (img : Image UInt8) (f : File) (size offset : Nat) : File × Except PyErr Bytes :=
  match f.file.seek img f.inode f.addresses offset .set with
  | .error e => (f, .error e)
  | .ok (_, g) => (⟨f.inode, f.addresses, (g.read img f.inode f.addresses size).2⟩, .ok (g.read img f.inode f.addresses size).1)

/-- The mount source (squashfs.py:390-487). The files share nothing; closing a file has no effect (squashfs.py:277-279). -/
def lib (img : Image UInt8) (readInode : Nat × Nat → Except PyErr SquashFS.Inode) : Lib Unit File where
  openRow := fun g r => (g, openRow img readInode r)
  pread := fun g f size offset => (g, pread img f size offset)
  close := fun g _ => g

/-! ## specification -/

/-- The image holds the contents of its files: the inode at the position of each file has the blocks of its contents. -/
structure Contains (img : Image UInt8) (readInode : Nat × Nat → Except PyErr SquashFS.Inode) (es : List Node) (data : List Str → Bytes) : Prop where
  size : ∀ ns n, Reach es ns n → n.inode.kind = .file → n.inode.size = (data ns).length
  stored : ∀ ns n, Reach es ns n → n.inode.kind = .file → ∃ ino, readInode (n.startBlock, n.offset) = .ok ino ∧ Stored img ino (data ns)

/-! ## lemmas -/

/-- An entry as a member of an archive. -/
def recOf (data : List Str → Bytes) (x : Item) : Rec :=
  ⟨x.names, modeOf x.inode, linkOf x.inode, x.inode.time, 0, 0, if x.inode.kind = .file then data x.names else []⟩

theorem columns_fits : ∀ xs : List Item, (∀ x ∈ xs, SquashFSRows.Fits x.startBlock x.offset) →
    columns xs = .ok (xs.map (fun x : Item => columnsAt x (position x)))
  | [], _ => rfl
  | x :: xs, h => by
    have hx := h x List.mem_cons_self
    have : columnsOf x = .ok (columnsAt x (position x)) := by
      unfold columnsOf joinInode
      rw [if_neg (by have := hx.1; omega), if_neg (by have := hx.2; omega)]
      rfl
    rw [columns, this]
    simp only
    rw [columns_fits xs (fun y hy => h y (List.mem_cons_of_mem _ hy))]
    rfl

/-- The rows of an image. -/
def rowsOf (b o : Nat) (i : SquashFSRows.Inode) (es : List Node) : List FRow :=
  (iterate b o i es).map (fun x : Item => columnsAt x (position x))

theorem index_sound {b o : Nat} {i : SquashFSRows.Inode} {es : List Node} (h : Sound b o i es) : index b o i es = .ok (rowsOf b o i es) :=
  columns_fits _ (SquashFSRows.iterate_fits h)

theorem indexed {b o : Nat} {i : SquashFSRows.Inode} {es : List Node} (h : Sound b o i es) {data : List Str → Bytes}
    (hs : ∀ ns n, Reach es ns n → n.inode.kind = .file → n.inode.size = (data ns).length) :
    Listed ((iterate b o i es).map (recOf data)) (rowsOf b o i es) [toRows (rowsOf b o i es)] := by
  have hnames : ∀ x ∈ iterate b o i es, ∀ z ∈ x.names, IsName z := fun x hx => SquashFSRows.item_names h hx
  refine ⟨?_, by simp [rowsOf], ?_, ?_, ?_, by simp⟩
  · intro p hp x hx
    obtain ⟨e, he, rfl⟩ := List.mem_map.mp hp
    exact hnames e he x hx
  · intro k p r hp hr
    rw [List.getElem?_map, Option.map_eq_some_iff] at hp
    obtain ⟨x, hx, rfl⟩ := hp
    unfold rowsOf at hr
    rw [List.getElem?_map, hx, Option.map_some, Option.some.injEq] at hr
    subst hr
    have hm := List.mem_of_getElem? hx
    refine ⟨?_, ?_, rfl, rfl, rfl, .inl rfl, .inl rfl⟩
    · show _ = splitPath (canonical x.names)
      rw [← C14_fixed x.names (hnames x hm)]
      rfl
    · show sizeOf_ x.inode = (if x.inode.kind = .file then data x.names else []).length
      unfold sizeOf_
      by_cases hk : x.inode.kind = .file
      · rw [if_pos hk, if_pos hk]
        rcases SquashFSRows.iterate_mem.mp hm with rfl | ⟨ns, n, hr, rfl⟩
        · exact absurd (h.root.2.1.symm.trans hk) (by decide)
        · exact hs ns n hr hk
      · rw [if_neg hk, if_neg hk]
        rfl
  · intro a c r r' hac hr hr' hpath hname
    exfalso
    unfold rowsOf at hr hr'
    rw [List.getElem?_map, Option.map_eq_some_iff] at hr hr'
    obtain ⟨x, hx, rfl⟩ := hr
    obtain ⟨y, hy, rfl⟩ := hr'
    have hxn := hnames x (List.mem_of_getElem? hx)
    have hyn := hnames y (List.mem_of_getElem? hy)
    have he : x.names = y.names := SquashFSRows.place_names (k := ⟨fun _ _ _ _ _ => 0⟩) (p := 0) (q := 0) hxn hyn (Prod.ext hpath hname)
    have hnd := SquashFSRows.iterate_nodup h
    have h1 : ((iterate b o i es).map Item.names)[a]? = some x.names := by rw [List.getElem?_map, hx]; rfl
    have h2 : ((iterate b o i es).map Item.names)[c]? = some x.names := by rw [List.getElem?_map, hy, he]; rfl
    have hal := (List.getElem?_eq_some_iff.mp h1).1
    exact absurd ((List.getElem?_inj hal hnd).mp (h1.trans h2.symm)) (by omega)
  · intro p hp hb
    obtain ⟨x, hx, rfl⟩ := List.mem_map.mp hp
    refine ⟨recOf data x, hp, rfl, ?_⟩
    obtain ⟨q, hq, n, rest, hpl⟩ := hb
    obtain ⟨y, hy, rfl⟩ := List.mem_map.mp hq
    have hpl : y.names = x.names ++ n :: rest := hpl
    apply SquashFSRows.dirBit_folder
    rcases SquashFSRows.iterate_mem.mp hx with rfl | ⟨ns, m, hr, rfl⟩
    · exact h.root.2.1
    · rcases SquashFSRows.iterate_mem.mp hy with rfl | ⟨ns', m', hr', rfl⟩
      · exact absurd hpl (by simp)
      · have hpl : ns' = ns ++ n :: rest := hpl
        have hne := SquashFSRows.reach_ne hr
        obtain ⟨f, h1, h2⟩ := SquashFSRows.reach_take hr' ns.length (List.length_pos_iff.mpr hne) (by rw [hpl]; simp)
        rw [hpl, List.take_left] at h1
        have hmem : (⟨ns, f.startBlock, f.offset, f.inode⟩ : Item) ∈ iterate b o i es := SquashFSRows.iterate_mem.mpr (.inr ⟨ns, f, h1, rfl⟩)
        have := SquashFSRows.names_inj (SquashFSRows.iterate_nodup h) hx hmem rfl
        injection this with _ _ _ h3
        show m.inode.kind = .folder
        rw [h3]
        exact h2

theorem iterate_place {b o : Nat} {i : SquashFSRows.Inode} {es : List Node} (h : Sound b o i es) {ns : List Str} {n : Node} (hr : Reach es ns n) :
    (iterate b o i es).filter (fun x => decide (x.names = ns)) = [⟨ns, n.startBlock, n.offset, n.inode⟩] := by
  have hmem : (⟨ns, n.startBlock, n.offset, n.inode⟩ : Item) ∈ iterate b o i es := SquashFSRows.iterate_mem.mpr (.inr ⟨ns, n, hr, rfl⟩)
  have hnd : (iterate b o i es).Nodup := SquashFSRows.nodup_of_map (SquashFSRows.iterate_nodup h)
  have hall : ∀ x ∈ (iterate b o i es).filter (fun x => decide (x.names = ns)), x = ⟨ns, n.startBlock, n.offset, n.inode⟩ := by
    intro x hx
    obtain ⟨h1, h2⟩ := List.mem_filter.mp hx
    exact SquashFSRows.names_inj (SquashFSRows.iterate_nodup h) h1 hmem (of_decide_eq_true h2)
  have hin : (⟨ns, n.startBlock, n.offset, n.inode⟩ : Item) ∈ (iterate b o i es).filter (fun x => decide (x.names = ns)) :=
    List.mem_filter.mpr ⟨hmem, decide_eq_true rfl⟩
  have hndf := hnd.filter (fun x => decide (x.names = ns))
  generalize (iterate b o i es).filter (fun x => decide (x.names = ns)) = l at hall hin hndf
  match l, hall, hin, hndf with
  | [x], hall, _, _ => rw [hall x (by simp)]
  | x :: y :: l, hall, _, hndf =>
    have h1 := hall x (by simp)
    have h2 := hall y (by simp)
    exact absurd (h1.trans h2.symm) ((List.pairwise_cons.mp hndf).1 y (by simp))

theorem lastAt_node {b o : Nat} {i : SquashFSRows.Inode} {es : List Node} (h : Sound b o i es) (data : List Str → Bytes) {ns : List Str} {n : Node}
    (hr : Reach es ns n) : lastAt ((iterate b o i es).map (recOf data)) ns = some (recOf data ⟨ns, n.startBlock, n.offset, n.inode⟩) := by
  unfold lastAt
  rw [List.filter_map, List.getLast?_map]
  have : (iterate b o i es).filter ((fun p : Rec => decide (p.place = ns)) ∘ recOf data) = (iterate b o i es).filter (fun x => decide (x.names = ns)) := rfl
  rw [this, iterate_place h hr]
  rfl

theorem mode_usual {i : SquashFSRows.Inode} (hu : i.kind = .file ∨ i.kind = .folder ∨ i.kind = .symlink) : modeOf i = i.perms ||| i.kind.bits * 4096 := by
  unfold modeOf SquashFSRows.Inode.mode
  rcases hu with h | h | h
  · rw [if_neg (by rw [h]; decide), if_neg (by rw [h]; decide), h, show Kind.bits .file = 8 from rfl, Nat.or_assoc, Nat.or_self]
  · rw [if_neg (by rw [h]; decide), if_pos h, h, show Kind.bits .folder = 4 from rfl, Nat.or_assoc, Nat.or_self]
  · rw [if_pos h, h, show Kind.bits .symlink = 10 from rfl, Nat.or_assoc, Nat.or_self]

theorem or_add {a b : Nat} (h : a < 4096) : a ||| b * 4096 = a + b * 4096 := by
  rw [Nat.or_comm, Nat.mul_comm b 4096, Nat.add_comm]
  exact (Nat.two_pow_add_eq_or_of_lt (i := 12) h b).symm

theorem not_hard {data : List Str → Bytes} {x : Item} (hp : x.inode.perms < 4096) : (recOf data x).isHard = false := by
  unfold Rec.isHard
  show (!(modeOf x.inode &&& 0xF000 == 0x8000) && !(modeOf x.inode &&& 0xF000 == 0xA000) && !(linkOf x.inode).isEmpty) = false
  unfold linkOf
  by_cases hk : x.inode.kind = .symlink
  · rw [mode_usual (.inr (.inr hk)), and_fmt, typeBits_or _ _ hp (by rw [hk]; decide), hk]
    simp [Kind.bits]
  · rw [if_neg hk]
    simp

/-- What is known of a file that was opened. -/
def State (img : Image UInt8) : Option Bytes → File → Prop
  | none, _ => True
  | some d, f => 0 < img.blockSize ∧ f.inode.size = d.length ∧ (∀ i, SquashFS.block img f.inode f.addresses i = SquashFS.chunk img.blockSize d i) ∧
      ∃ p, SquashFS.At img.blockSize d f.file p

theorem pread_state {img : Image UInt8} {d : Bytes} {f : File} (h : State img (some d) f) (size offset : Nat) :
    (pread img f size offset).2 = .ok ((d.drop offset).take size) ∧ State img (some d) (pread img f size offset).1 := by
  obtain ⟨hb, hs, hbl, p, hat⟩ := h
  have ht : ((BytesIO.mk d p).target (offset : Int) .set) = (offset : Int) := rfl
  obtain ⟨g, h1, h2, -⟩ := SquashFS.seek_at hb hbl hs hat (offset : Int) .set (by intro h; cases h) (by rw [ht]; omega)
  rw [ht, Int.toNat_natCast] at h2
  obtain ⟨h3, h4, -⟩ := SquashFS.read_at hb hbl h2 (size : Int)
  unfold pread
  rw [h1]
  simp only
  refine ⟨?_, hb, hs, hbl, _, h4⟩
  have h5 := congrArg (fun q => q.2) h3
  simp only [SqFile.step, BytesIO.step] at h5
  rw [if_neg (by omega), Int.toNat_natCast] at h5
  exact congrArg Except.ok (FileOut.bytes.inj h5)

theorem serves (img : Image UInt8) (readInode : Nat × Nat → Except PyErr SquashFS.Inode) (rs : List FRow) :
    Serves (lib img readInode) rs (fun _ => True) (State img) (fun _ _ => True) where
  openJ := fun _ _ _ _ => trivial
  openI := fun _ _ _ _ _ _ => ⟨none, trivial⟩
  preadJ := by
    intro g d o size offset _ hd
    refine ⟨trivial, ?_⟩
    cases d with
    | none => trivial
    | some d => exact (pread_state hd size offset).2
  pread := by
    intro g d o size offset _ hd _
    exact (pread_state hd size offset).1
  closeJ := fun _ _ _ _ _ => trivial

theorem open_node {img : Image UInt8} {readInode : Nat × Nat → Except PyErr SquashFS.Inode} {x : Item} (hf : SquashFSRows.Fits x.startBlock x.offset)
    {ino : SquashFS.Inode} {d : Bytes} (hr : readInode (x.startBlock, x.offset) = .ok ino) (hs : Stored img ino d) :
    ∃ f, openRow img readInode (columnsAt x (position x)) = .ok f ∧ State img (some d) f := by
  obtain ⟨offsets, f, h1, h2, h3, -⟩ := SquashFS.open_at hs
  have hp : splitInode (columnsAt x (position x)).oh = (x.startBlock, x.offset) := by
    obtain ⟨m, e1, -, e2⟩ := SquashFS.C67_roundtrip x.startBlock x.offset hf.1 hf.2
    unfold joinInode at e1
    rw [if_neg (by have := hf.1; omega), if_neg (by have := hf.2; omega)] at e1
    cases e1
    exact e2
  refine ⟨⟨ino, offsets, f⟩, ?_, hs.bs, hs.size, h2, 0, h3⟩
  unfold openRow
  rw [hp, hr]
  simp only [h1]

theorem reach_prefix {es : List Node} {ns rest : List Str} {n : Str} {m : Node} (hne : ns ≠ []) (h : Reach es (ns ++ n :: rest) m) :
    ∃ f, Reach es ns f := by
  obtain ⟨f, h1, -⟩ := SquashFSRows.reach_take h ns.length (List.length_pos_iff.mpr hne) (by simp)
  rw [List.take_left] at h1
  exact ⟨f, h1⟩

/-! ## the properties -/

/-- **C202** An image whose positions fit is mounted. -/
theorem C202_mounts {b o : Nat} {i : SquashFSRows.Inode} {es : List Node} (h : Sound b o i es) : ∃ rs, index b o i es = .ok rs := ⟨_, index_sound h⟩

/-- **C202** After any calls, every file of the image can be opened, and all reads return exactly the requested range of its contents, in whichever
order they come, whatever else is opened, read and closed in between. -/
theorem C202_read {img : Image UInt8} {readInode : Nat × Nat → Except PyErr SquashFS.Inode} {b o : Nat} {i : SquashFSRows.Inode} {es : List Node}
    (h : Sound b o i es) {data : List Str → Bytes} (hc : Contains img readInode es data) {rs : List FRow} (hi : index b o i es = .ok rs)
    {ns : List Str} {n : Node} (hr : Reach es ns n) (hk : n.inode.kind = .file) (before : List Call) :
    ∃ m fh, mopen (lib img readInode) rs (src rs) (calls (lib img readInode) rs (src rs) (start ()) before) (canonical ns) = (m, .ok fh) ∧
      ∀ (between : List Call) (size offset : Nat), Call.release fh ∉ between →
        (mread (lib img readInode) (calls (lib img readInode) rs (src rs) m between) fh size offset).2 = .ok (((data ns).drop offset).take size) := by
  have := (index_sound h).symm.trans hi
  cases this
  have hn := h.node ns n hr
  obtain ⟨m, fh, h1, h2⟩ := LibMount.reads (serves img readInode _) (indexed h hc.size) (SquashFSRows.reach_ne hr)
    (SquashFSRows.reach_names (fun a c hac => (h.node a c hac).1) hr) (lastAt_node h data hr) (not_hard hn.2.2.1) (data := data ns) (g₀ := ())
    (by
      intro k r hk1 hk2 g _
      rw [List.getElem?_map, Option.map_eq_some_iff] at hk1
      obtain ⟨x, hx, hxe⟩ := hk1
      unfold rowsOf at hk2
      rw [List.getElem?_map, hx, Option.map_some, Option.some.injEq] at hk2
      subst hk2
      have hxn : x.names = ns := congrArg (fun p => p.place) hxe
      have hmem : (⟨ns, n.startBlock, n.offset, n.inode⟩ : Item) ∈ iterate b o i es := SquashFSRows.iterate_mem.mpr (.inr ⟨ns, n, hr, rfl⟩)
      have := SquashFSRows.names_inj (SquashFSRows.iterate_nodup h) (List.mem_of_getElem? hx) hmem hxn
      subst this
      obtain ⟨ino, h3, h4⟩ := hc.stored ns n hr hk
      exact open_node hn.2.1 h3 h4) trivial before
  exact ⟨m, fh, h1, fun between size offset hb => h2 between size offset hb trivial⟩

/-- Some bytes for each file, of the size that the inode has. -/
def zeros (b o : Nat) (i : SquashFSRows.Inode) (es : List Node) (ns : List Str) : Bytes :=
  List.replicate ((((iterate b o i es).filter (fun x => decide (x.names = ns))).head?.map (fun x : Item => x.inode.size)).getD 0) 0

theorem zeros_size {b o : Nat} {i : SquashFSRows.Inode} {es : List Node} (h : Sound b o i es) {ns : List Str} {n : Node} (hr : Reach es ns n) :
    n.inode.size = (zeros b o i es ns).length := by
  unfold zeros
  rw [iterate_place h hr, List.length_replicate]
  rfl

theorem indexed_zeros {b o : Nat} {i : SquashFSRows.Inode} {es : List Node} (h : Sound b o i es) :
    Listed ((iterate b o i es).map (recOf (zeros b o i es))) (rowsOf b o i es) [toRows (rowsOf b o i es)] :=
  indexed h (fun _ _ hr _ => zeros_size h hr)

/-- **C202** Files, folders and symbolic links have their type, their permissions, their time, and files their size. -/
theorem C202_attributes {b o : Nat} {i : SquashFSRows.Inode} {es : List Node} (h : Sound b o i es) {rs : List FRow} (hi : index b o i es = .ok rs)
    {ns : List Str} {n : Node} (hr : Reach es ns n) (hu : Usual n) :
    mgetattr rs (src rs) (canonical ns) =
      .ok ⟨n.inode.perms + n.inode.kind.bits * 4096, if n.inode.kind = .file then n.inode.size else 0, n.inode.time, 0, 0⟩ := by
  have := (index_sound h).symm.trans hi
  cases this
  have hp := (h.node ns n hr).2.2.1
  refine (ObjectMount.attributes (indexed_zeros h) (SquashFSRows.reach_ne hr) (SquashFSRows.reach_names (fun a c hac => (h.node a c hac).1) hr)
    (lastAt_node h _ hr) (not_hard hp)).1.trans ?_
  show Except.ok (⟨modeOf n.inode, (if n.inode.kind = .file then zeros b o i es ns else []).length, n.inode.time, 0, 0⟩ : Stat) = _
  rw [mode_usual hu, or_add hp]
  by_cases hk : n.inode.kind = .file
  · rw [if_pos hk, if_pos hk, ← zeros_size h hr]
  · rw [if_neg hk, if_neg hk]
    rfl

/-- **C202** A symbolic link has its target, and nothing else has one. -/
theorem C202_link {b o : Nat} {i : SquashFSRows.Inode} {es : List Node} (h : Sound b o i es) {rs : List FRow} (hi : index b o i es = .ok rs)
    {ns : List Str} {n : Node} (hr : Reach es ns n) :
    mreadlink (src rs) (canonical ns) = .ok (if n.inode.kind = .symlink then n.inode.target else []) := by
  have := (index_sound h).symm.trans hi
  cases this
  exact (ObjectMount.attributes (indexed_zeros h) (SquashFSRows.reach_ne hr) (SquashFSRows.reach_names (fun a c hac => (h.node a c hac).1) hr)
    (lastAt_node h _ hr) (not_hard (h.node ns n hr).2.2.1)).2

/-- **C202** What is not in the image does not exist. -/
theorem C202_absent {img : Image UInt8} {readInode : Nat × Nat → Except PyErr SquashFS.Inode} {b o : Nat} {i : SquashFSRows.Inode} {es : List Node}
    (h : Sound b o i es) {rs : List FRow} (hi : index b o i es = .ok rs) {ns : List Str} (hn : ∀ x ∈ ns, IsName x) (hne : ns ≠ [])
    (hv : ∀ x ∈ ns, endsWith dotVersions x = false) (hno : ∀ n, ¬ Reach es ns n) (m : Mount Unit File) :
    mgetattr rs (src rs) (canonical ns) = .error (.os 2) ∧ mopen (lib img readInode) rs (src rs) m (canonical ns) = (m, .error (.os 2)) := by
  have := (index_sound h).symm.trans hi
  cases this
  have hitem : ∀ x ∈ iterate b o i es, ∀ rest, x.names ≠ ns ++ rest := by
    intro x hx rest he
    rcases SquashFSRows.iterate_mem.mp hx with rfl | ⟨ns', n, hr, rfl⟩
    · exact hne (List.append_eq_nil_iff.mp he.symm).1
    · have he : ns' = ns ++ rest := he
      subst he
      cases rest with
      | nil => rw [List.append_nil] at hr; exact hno n hr
      | cons a rest =>
        obtain ⟨f, hf⟩ := reach_prefix hne hr
        exact hno f hf
  refine LibMount.absent (indexed_zeros h) hn hne hv ?_ ?_ m
  · unfold lastAt
    rw [List.getLast?_eq_none_iff, List.filter_eq_nil_iff]
    intro p hp
    obtain ⟨x, hx, rfl⟩ := List.mem_map.mp hp
    intro he
    exact hitem x hx [] ((of_decide_eq_true he).trans (List.append_nil _).symm)
  · rintro ⟨p, hp, n, rest, hpl⟩
    obtain ⟨x, hx, rfl⟩ := List.mem_map.mp hp
    exact hitem x hx _ hpl

/-- **C202** A listing has exactly the names of the entries of the folder. -/
theorem C202_list {b o : Nat} {i : SquashFSRows.Inode} {es : List Node} (h : Sound b o i es) {rs : List FRow} (hi : index b o i es = .ok rs)
    {ns : List Str} (hn : ∀ x ∈ ns, IsName x) (hv : ∀ x ∈ ns, endsWith dotVersions x = false) (x : Str) :
    x ∈ mreaddir (src rs) (canonical ns) ↔ x = ['.'] ∨ x = ['.', '.'] ∨ ∃ n, Reach es (ns ++ [x]) n := by
  have := (index_sound h).symm.trans hi
  cases this
  unfold src
  rw [lists (indexed_zeros h) hn hv]
  constructor
  · rintro (h | h | ⟨p, hp, rest, hpl⟩)
    · exact .inl h
    · exact .inr (.inl h)
    · obtain ⟨y, hy, rfl⟩ := List.mem_map.mp hp
      refine .inr (.inr ?_)
      have hpl : y.names = ns ++ x :: rest := hpl
      rcases SquashFSRows.iterate_mem.mp hy with rfl | ⟨ns', n, hr, rfl⟩
      · exact absurd hpl (by simp)
      · have hpl : ns' = ns ++ x :: rest := hpl
        subst hpl
        cases rest with
        | nil => exact ⟨n, hr⟩
        | cons a rest =>
          rw [show ns ++ x :: a :: rest = (ns ++ [x]) ++ a :: rest by simp] at hr
          exact reach_prefix (by simp) hr
  · rintro (h | h | ⟨n, hr⟩)
    · exact .inl h
    · exact .inr (.inl h)
    · exact .inr (.inr ⟨_, List.mem_map.mpr ⟨_, SquashFSRows.iterate_mem.mpr (.inr ⟨_, n, hr, rfl⟩), rfl⟩, [], rfl⟩)

/-- **C202** No name is listed twice. -/
theorem C202_nodup {b o : Nat} {i : SquashFSRows.Inode} {es : List Node} (h : Sound b o i es) {rs : List FRow} (hi : index b o i es = .ok rs)
    {ns : List Str} (hn : ∀ x ∈ ns, IsName x) (hv : ∀ x ∈ ns, endsWith dotVersions x = false) :
    (mreaddir (src rs) (canonical ns)).Nodup := by
  have := (index_sound h).symm.trans hi
  cases this
  exact once (indexed_zeros h) hn hv

/-- **C202** An image can be mounted, and every file of it is read back. -/
theorem C202_whole {img : Image UInt8} {readInode : Nat × Nat → Except PyErr SquashFS.Inode} {b o : Nat} {i : SquashFSRows.Inode} {es : List Node}
    (h : Sound b o i es) {data : List Str → Bytes} (hc : Contains img readInode es data) :
    ∃ rs, index b o i es = .ok rs ∧ ∀ ns n, Reach es ns n → n.inode.kind = .file → ∀ before,
      ∃ m fh, mopen (lib img readInode) rs (src rs) (calls (lib img readInode) rs (src rs) (start ()) before) (canonical ns) = (m, .ok fh) ∧
        (mread (lib img readInode) m fh n.inode.size 0).2 = .ok (data ns) := by
  refine ⟨_, index_sound h, ?_⟩
  intro ns n hr hk before
  obtain ⟨m, fh, h1, h2⟩ := C202_read h hc (index_sound h) hr hk before
  refine ⟨m, fh, h1, ?_⟩
  have := h2 [] n.inode.size 0 (by simp)
  rw [hc.size ns n hr hk, List.drop_zero, List.take_length] at this
  rw [hc.size ns n hr hk]
  exact this

/-! ### examples -/

/-- The blocks of the file: one that is stored, one of zeros, and a fragment. -/
def demoImage : Image UInt8 :=
  ⟨4, (· % 100), fun a b => if a = 50 ∧ b = 103 then [1, 2, 3, 4] else if a = 9 ∧ b = 7 then [8, 8, 5, 6, 8] else [], 0⟩

/-- The inode of the file. -/
def demoInode : SquashFS.Inode := ⟨10, 50, [103, 0], (9, 7), 2, 2⟩

/-- The inode at the position of the file. -/
def demoRead (p : Nat × Nat) : Except PyErr SquashFS.Inode := if p = (1, 5) then .ok demoInode else .error .valueError

theorem demo_stored : Stored demoImage demoInode [1, 2, 3, 4, 0, 0, 0, 0, 5, 6] where
  size := rfl
  bs := by decide
  count := by decide
  fragment := by decide
  data := by
    intro i b hb h0
    have hi := (List.getElem?_eq_some_iff.mp hb).1
    have : i = 0 ∨ i = 1 := by
      have : demoInode.blocks.length = 2 := rfl
      omega
    rcases this with rfl | rfl
    · injection hb with hb; subst hb; decide
    · injection hb with hb; exact absurd hb.symm h0
  sparse := by
    intro i hb
    have hi := (List.getElem?_eq_some_iff.mp hb).1
    have : i = 0 ∨ i = 1 := by
      have : demoInode.blocks.length = 2 := rfl
      omega
    rcases this with rfl | rfl
    · exact absurd hb (by decide)
    · decide

theorem demo_files {ns : List Str} {n : Node} (h : Reach SquashFSRows.demoEntries ns n) (hk : n.inode.kind = .file) :
    n = .mk "f".toList 1 5 ⟨.file, 0o644, 10, 7, [], 1000, 1000⟩ [] := by
  cases h with
  | here hm =>
    rcases List.mem_cons.mp hm with rfl | hm
    · cases hk
    · exact List.mem_singleton.mp hm
  | inside hm hk' hr =>
    rcases List.mem_cons.mp hm with rfl | hm
    · cases hr with
      | here hm => cases List.mem_singleton.mp hm; cases hk
      | inside hm hk' _ => cases List.mem_singleton.mp hm; cases hk'
    · cases List.mem_singleton.mp hm; cases hk'

theorem demo_contains : Contains demoImage demoRead SquashFSRows.demoEntries (fun _ => [1, 2, 3, 4, 0, 0, 0, 0, 5, 6]) where
  size := by
    intro ns n hr hk
    rw [demo_files hr hk]
    rfl
  stored := by
    intro ns n hr hk
    rw [demo_files hr hk]
    exact ⟨demoInode, rfl, demo_stored⟩

example : ∃ rs m, index 0 0 SquashFSRows.demoRoot SquashFSRows.demoEntries = .ok rs ∧
    mopen (lib demoImage demoRead) rs (src rs) (start ()) "/f".toList = (m, .ok 1) ∧
    (mread (lib demoImage demoRead) m 1 5 3).2 = .ok [4, 0, 0, 0, 0] := by
  have hi : index 0 0 SquashFSRows.demoRoot SquashFSRows.demoEntries = .ok (rowsOf 0 0 SquashFSRows.demoRoot SquashFSRows.demoEntries) :=
    index_sound SquashFSRows.demo_sound
  obtain ⟨m, fh, h1, h2⟩ := C202_read SquashFSRows.demo_sound demo_contains hi
    (ns := ["f".toList]) (n := .mk "f".toList 1 5 ⟨.file, 0o644, 10, 7, [], 1000, 1000⟩ [])
    (.here (n := .mk "f".toList 1 5 ⟨.file, 0o644, 10, 7, [], 1000, 1000⟩ []) (by simp [SquashFSRows.demoEntries])) rfl []
  have hfh : fh = 1 := by
    have : (mopen (lib demoImage demoRead) (rowsOf 0 0 SquashFSRows.demoRoot SquashFSRows.demoEntries)
      (src (rowsOf 0 0 SquashFSRows.demoRoot SquashFSRows.demoEntries)) (start ()) "/f".toList).2 = .ok 1 := by decide +kernel
    have h3 := (congrArg (fun q => q.2) h1).symm.trans this
    cases h3
    rfl
  subst hfh
  exact ⟨_, m, hi, h1, h2 [] 5 3 (by simp)⟩

example : ∃ rs, index 0 0 SquashFSRows.demoRoot SquashFSRows.demoEntries = .ok rs ∧ mreaddir (src rs) "/".toList = [".".toList, "..".toList, "dev".toList, "f".toList] ∧
    mgetattr rs (src rs) "/f".toList = .ok ⟨0o100644, 10, 7, 0, 0⟩ ∧ mgetattr rs (src rs) "/dev".toList = .ok ⟨0o40755, 0, 9, 0, 0⟩ :=
  ⟨_, index_sound SquashFSRows.demo_sound, by decide +kernel, by decide +kernel, by decide +kernel⟩

end Verif.Fuse.SquashMount
