import Verif.Formats.SquashFS
import Verif.Index.Complete
import Verif.Bits

/-! The rows of SquashFS images (squashfs.py:342-417, 419-467): the folders are walked and each inode becomes a row of the index. -/

namespace Verif.SquashFSRows

open Verif.Py Verif.Index Verif.SquashFS

/-- The types of inodes, as distinguished by `is_symlink`, `is_dir` and `is_file` of the library (squashfs.py:424-437). -/
inductive Kind where
  | folder | file | symlink | fifo | socket | character | block
deriving DecidableEq

/-- The four bits of the type in a mode. The library combines them with the permissions, as `unsquashfs` does. -/
def Kind.bits : Kind → Nat
  | .folder => 4
  | .file => 8
  | .symlink => 10
  | .fifo => 1
  | .socket => 12
  | .character => 2
  | .block => 6

/-- An inode, as the library gives it (squashfs.py:421-439). -/
structure Inode where
  kind : Kind
  perms : Nat
  size : Nat
  time : Nat
  target : Str
  uid : Nat
  gid : Nat
deriving DecidableEq

/-- An entry of a folder: its name, the position of the inode, the inode, and the entries if it is a folder (squashfs.py:363-375). -/
inductive Node where
  | mk (name : Str) (startBlock offset : Nat) (inode : Inode) (entries : List Node)

/-- The name of an entry (squashfs.py:363-375). -/
def Node.name : Node → Str
  | .mk n _ _ _ _ => n

/-- `entry["start_block"]` (squashfs.py:365). -/
def Node.startBlock : Node → Nat
  | .mk _ b _ _ _ => b

/-- `entry["offset"]` (squashfs.py:366). -/
def Node.offset : Node → Nat
  | .mk _ _ o _ _ => o

/-- The inode of an entry (squashfs.py:372-374). -/
def Node.inode : Node → Inode
  | .mk _ _ _ i _ => i

/-- The entries of a folder (squashfs.py:364). -/
def Node.entries : Node → List Node
  | .mk _ _ _ _ es => es

/-- What the iteration yields: the names from the root, the position and the inode (squashfs.py:342-375). -/
structure Item where
  names : List Str
  startBlock : Nat
  offset : Nat
  inode : Inode

mutual
/-- One round of the loop in `_recursive_inodes_iterator` (squashfs.py:363-375). -/
def visit (folder : List Str) : Node → List Item
  | .mk name b o i es =>
    ⟨folder ++ [name], b, o, i⟩ :: (if i.kind = .folder then visitAll (folder ++ [name]) es else [])

/-- `_recursive_inodes_iterator` (squashfs.py:363-375). -/
def visitAll (folder : List Str) : List Node → List Item
  | [] => []
  | e :: es => visit folder e ++ visitAll folder es
end

/-- `__iter__` (squashfs.py:342-352): the root first. -/
def iterate (b o : Nat) (i : Inode) (es : List Node) : List Item := ⟨[], b, o, i⟩ :: visitAll [] es

/-- `info.mode` (squashfs.py:421), type and permissions. -/
def Inode.mode (i : Inode) : Nat := i.perms ||| i.kind.bits * 4096

/-- The mode of the row (squashfs.py:421-428). -/
def modeOf (i : Inode) : Nat :=
  if i.kind = .symlink then i.mode ||| 10 * 4096
  else if i.kind = .folder then i.mode ||| 4 * 4096
  else i.mode ||| 8 * 4096

/-- `linkname` (squashfs.py:422-425). -/
def linkOf (i : Inode) : Str := if i.kind = .symlink then i.target else []

/-- `fileSize` (squashfs.py:436). -/
def sizeOf_ (i : Inode) : Nat := if i.kind = .file then i.size else 0

/-- How the columns for the size, time, link target and owner are stored. -/
structure Pack where
  pack : Nat → Nat → Str → Nat → Nat → Nat

/-- The row at the position `position` (squashfs.py:430, 439-457). -/
def rowAt (transform : Str → Str) (k : Pack) (x : Item) (position : Nat) : Row :=
  (⟨(splitPath (normpath (transform (canonical x.names)))).1, (splitPath (normpath (transform (canonical x.names)))).2, position⟩,
    ⟨0, modeOf x.inode, false, k.pack (sizeOf_ x.inode) x.inode.time (linkOf x.inode) 0 0⟩)

/-- `_convert_to_row` for what `__iter__` yields (squashfs.py:375, 419-457). -/
def convert (transform : Str → Str) (k : Pack) (x : Item) : Except PyErr Row :=
  match joinInode x.startBlock x.offset with
  | .error e => .error e
  | .ok position => .ok (rowAt transform k x position)

/-- The loop of `_create_index` (squashfs.py:460-465). -/
def rowsOf (transform : Str → Str) (k : Pack) : List Item → Except PyErr (List Row)
  | [] => .ok []
  | x :: xs =>
    match convert transform k x with
    | .error e => .error e
    | .ok r =>
      match rowsOf transform k xs with
      | .error e => .error e
      | .ok rs => .ok (r :: rs)

/-- `_create_index` (squashfs.py:460-465). -/
def createIndex (transform : Str → Str) (k : Pack) (b o : Nat) (i : Inode) (es : List Node) : Except PyErr Table :=
  match rowsOf transform k (iterate b o i es) with
  | .error e => .error e
  | .ok rs => .ok (build [rs])

/-! ## specification -/

/-- The entry at a path below a folder. -/
inductive Reach : List Node → List Str → Node → Prop
  | here {es : List Node} {n : Node} : n ∈ es → Reach es [n.name] n
  | inside {es : List Node} {n m : Node} {ns : List Str} : n ∈ es → n.inode.kind = .folder → Reach n.entries ns m → Reach es (n.name :: ns) m

/-- The position of an inode fits into the fields of the format. -/
def Fits (b o : Nat) : Prop := b < 2 ^ 32 ∧ o < 2 ^ 16

/-- An image: names are names and occur once in a folder, and the root is a folder. -/
structure Sound (b o : Nat) (i : Inode) (es : List Node) : Prop where
  root : Fits b o ∧ i.kind = .folder ∧ (es.map Node.name).Nodup
  node : ∀ ns n, Reach es ns n → IsName n.name ∧ Fits n.startBlock n.offset ∧ n.inode.perms < 4096 ∧ (n.entries.map Node.name).Nodup

/-- What a user sees: the type, permissions, size, time and target, and that reading it reads its inode. -/
def Shown (k : Pack) (n : Node) (fi : FileInfo) : Prop :=
  typeBits fi.info.mode = n.inode.kind.bits ∧ fi.info.mode % 4096 = n.inode.perms ∧
  (∃ uid gid, fi.info.rest = k.pack (if n.inode.kind = .file then n.inode.size else 0) n.inode.time
    (if n.inode.kind = .symlink then n.inode.target else []) uid gid) ∧
  0 ≤ fi.oh ∧ splitInode fi.oh.toNat = (n.startBlock, n.offset)

/-- C168: every entry of the image is shown as it is, and nothing else is shown. -/
def C168_statement : Prop :=
  ∀ (k : Pack) (b o : Nat) (i : Inode) (es : List Node), Sound b o i es →
    ∃ t, createIndex id k b o i es = .ok t ∧
      (∀ ns n, Reach es ns n → ∃ fi, lookup t (canonical ns) 0 = some fi ∧ Shown k n fi) ∧
      ∀ ns version fi, ns ≠ [] → (∀ x ∈ ns, IsName x) → lookup t (canonical ns) version = some fi → ∃ n, Reach es ns n ∧ Shown k n fi

/-- The types that SquashFS images usually have. -/
def Usual (n : Node) : Prop := n.inode.kind = .file ∨ n.inode.kind = .folder ∨ n.inode.kind = .symlink

/-! ## lemmas -/

theorem reach_ne {es : List Node} {ns : List Str} {n : Node} (h : Reach es ns n) : ns ≠ [] := by cases h <;> simp

theorem reach_cons {e : Node} {es : List Node} {ns : List Str} {n : Node} : Reach (e :: es) ns n ↔ Reach [e] ns n ∨ Reach es ns n := by
  constructor
  · intro h
    cases h with
    | here hm =>
      rcases List.mem_cons.mp hm with rfl | hm
      · exact .inl (.here (by simp))
      · exact .inr (.here hm)
    | inside hm hk hr =>
      rcases List.mem_cons.mp hm with rfl | hm
      · exact .inl (.inside (by simp) hk hr)
      · exact .inr (.inside hm hk hr)
  · rintro (h | h)
    · cases h with
      | here hm => exact .here (by cases List.mem_singleton.mp hm; simp)
      | inside hm hk hr => exact .inside (by cases List.mem_singleton.mp hm; simp) hk hr
    · cases h with
      | here hm => exact .here (List.mem_cons_of_mem _ hm)
      | inside hm hk hr => exact .inside (List.mem_cons_of_mem _ hm) hk hr

mutual
theorem visit_mem (folder : List Str) (x : Item) : ∀ e : Node,
    x ∈ visit folder e ↔ ∃ ns n, Reach [e] ns n ∧ x = ⟨folder ++ ns, n.startBlock, n.offset, n.inode⟩
  | .mk name b o i es => by
    rw [visit, List.mem_cons]
    constructor
    · rintro (rfl | h)
      · exact ⟨[name], .mk name b o i es, .here (List.mem_singleton.mpr rfl), rfl⟩
      · by_cases hk : i.kind = .folder
        · rw [if_pos hk] at h
          obtain ⟨ns, n, hr, rfl⟩ := (visitAll_mem (folder ++ [name]) x es).mp h
          refine ⟨name :: ns, n, .inside (n := .mk name b o i es) (List.mem_singleton.mpr rfl) hk hr, ?_⟩
          simp
        · rw [if_neg hk] at h; cases h
    · rintro ⟨ns, n, hr, rfl⟩
      cases hr with
      | here hm => cases List.mem_singleton.mp hm; exact .inl rfl
      | inside hm hk hr =>
        cases List.mem_singleton.mp hm
        right
        rw [if_pos (show i.kind = .folder from hk)]
        refine (visitAll_mem (folder ++ [name]) _ es).mpr ⟨_, _, hr, ?_⟩
        simp [Node.name]
theorem visitAll_mem (folder : List Str) (x : Item) : ∀ es : List Node,
    x ∈ visitAll folder es ↔ ∃ ns n, Reach es ns n ∧ x = ⟨folder ++ ns, n.startBlock, n.offset, n.inode⟩
  | [] => by
    rw [visitAll]
    constructor
    · intro h; cases h
    · rintro ⟨ns, n, hr, -⟩
      cases hr with
      | here hm => cases hm
      | inside hm _ _ => cases hm
  | e :: es => by
    rw [visitAll, List.mem_append, visit_mem folder x e, visitAll_mem folder x es]
    constructor
    · rintro (⟨ns, n, h, rfl⟩ | ⟨ns, n, h, rfl⟩)
      · exact ⟨ns, n, reach_cons.mpr (.inl h), rfl⟩
      · exact ⟨ns, n, reach_cons.mpr (.inr h), rfl⟩
    · rintro ⟨ns, n, h, rfl⟩
      rcases reach_cons.mp h with h | h
      · exact .inl ⟨ns, n, h, rfl⟩
      · exact .inr ⟨ns, n, h, rfl⟩
end

theorem visitAll_head {folder : List Str} {es : List Node} {x : Item} (h : x ∈ visitAll folder es) :
    ∃ n ∈ es, ∃ ns, x.names = folder ++ n.name :: ns := by
  obtain ⟨ns, n, hr, rfl⟩ := (visitAll_mem folder x es).mp h
  cases hr with
  | here hm => exact ⟨n, hm, [], rfl⟩
  | inside hm _ _ => exact ⟨_, hm, _, rfl⟩

theorem visit_head {folder : List Str} {e : Node} {x : Item} (h : x ∈ visit folder e) : ∃ ns, x.names = folder ++ e.name :: ns := by
  obtain ⟨ns, n, hr, rfl⟩ := (visit_mem folder x e).mp h
  cases hr with
  | here hm => cases List.mem_singleton.mp hm; exact ⟨[], rfl⟩
  | inside hm _ _ => cases List.mem_singleton.mp hm; exact ⟨_, rfl⟩

mutual
theorem visit_nodup (folder : List Str) : ∀ e : Node, (∀ ns n, Reach [e] ns n → (n.entries.map Node.name).Nodup) →
    ((visit folder e).map Item.names).Nodup
  | .mk name b o i es, h => by
    rw [visit, List.map_cons, List.nodup_cons]
    by_cases hk : i.kind = .folder
    · rw [if_pos hk]
      constructor
      · rw [List.mem_map]
        rintro ⟨x, hx, he⟩
        obtain ⟨n, -, ns, hn⟩ := visitAll_head hx
        rw [hn] at he
        have := congrArg List.length he
        simp at this
      · refine visitAll_nodup (folder ++ [name]) es ?_ (fun ns n hr => h (name :: ns) n (.inside (n := .mk name b o i es) (List.mem_singleton.mpr rfl) hk hr))
        exact h [name] (.mk name b o i es) (.here (List.mem_singleton.mpr rfl))
    · rw [if_neg hk]
      simp
theorem visitAll_nodup (folder : List Str) : ∀ es : List Node, (es.map Node.name).Nodup →
    (∀ ns n, Reach es ns n → (n.entries.map Node.name).Nodup) → ((visitAll folder es).map Item.names).Nodup
  | [], _, _ => by rw [visitAll]; exact List.nodup_nil
  | e :: es, hn, h => by
    rw [visitAll, List.map_append, List.nodup_append]
    rw [List.map_cons, List.nodup_cons] at hn
    refine ⟨visit_nodup folder e (fun ns n hr => h ns n (reach_cons.mpr (.inl hr))),
      visitAll_nodup folder es hn.2 (fun ns n hr => h ns n (reach_cons.mpr (.inr hr))), ?_⟩
    intro a ha b hb hab
    rw [List.mem_map] at ha hb
    obtain ⟨x, hx, rfl⟩ := ha
    obtain ⟨y, hy, rfl⟩ := hb
    obtain ⟨ns, h1⟩ := visit_head hx
    obtain ⟨n, hnm, ms, h2⟩ := visitAll_head hy
    rw [h1, h2] at hab
    have := List.append_cancel_left hab
    injection this with h3 _
    exact hn.1 (List.mem_map.mpr ⟨n, hnm, h3.symm⟩)
end

theorem iterate_mem {b o : Nat} {i : Inode} {es : List Node} {x : Item} :
    x ∈ iterate b o i es ↔ x = ⟨[], b, o, i⟩ ∨ ∃ ns n, Reach es ns n ∧ x = ⟨ns, n.startBlock, n.offset, n.inode⟩ := by
  unfold iterate
  rw [List.mem_cons, visitAll_mem]
  rfl

theorem iterate_nodup {b o : Nat} {i : Inode} {es : List Node} (h : Sound b o i es) : ((iterate b o i es).map Item.names).Nodup := by
  unfold iterate
  rw [List.map_cons, List.nodup_cons]
  constructor
  · rw [List.mem_map]
    rintro ⟨x, hx, he⟩
    obtain ⟨n, -, ns, hn⟩ := visitAll_head hx
    rw [he] at hn
    simp at hn
  · exact visitAll_nodup [] es h.root.2.2 (fun ns n hr => (h.node ns n hr).2.2.2)

/-- The position that is stored. -/
def position (x : Item) : Nat := x.startBlock <<< 16 + x.offset

theorem convert_fits {transform : Str → Str} {k : Pack} {x : Item} (h : Fits x.startBlock x.offset) :
    convert transform k x = .ok (rowAt transform k x (position x)) := by
  unfold convert joinInode
  rw [if_neg (by have := h.1; omega), if_neg (by have := h.2; omega)]
  rfl

theorem rowsOf_fits (transform : Str → Str) (k : Pack) : ∀ xs : List Item, (∀ x ∈ xs, Fits x.startBlock x.offset) →
    rowsOf transform k xs = .ok (xs.map (fun x : Item => rowAt transform k x (position x)))
  | [], _ => rfl
  | x :: xs, h => by
    rw [rowsOf, convert_fits (h x (by simp))]
    simp only
    rw [rowsOf_fits transform k xs (fun y hy => h y (List.mem_cons_of_mem _ hy))]
    rfl

theorem iterate_fits {b o : Nat} {i : Inode} {es : List Node} (h : Sound b o i es) : ∀ x ∈ iterate b o i es, Fits x.startBlock x.offset := by
  intro x hx
  rcases iterate_mem.mp hx with rfl | ⟨ns, n, hr, rfl⟩
  · exact h.root.1
  · exact (h.node ns n hr).2.1

theorem createIndex_sound {b o : Nat} {i : Inode} {es : List Node} (h : Sound b o i es) (transform : Str → Str) (k : Pack) :
    createIndex transform k b o i es = .ok (build [(iterate b o i es).map (fun x : Item => rowAt transform k x (position x))]) := by
  unfold createIndex
  rw [rowsOf_fits _ _ _ (iterate_fits h)]

theorem reach_names {es : List Node} (h : ∀ ns n, Reach es ns n → IsName n.name) : ∀ {ns : List Str} {n : Node}, Reach es ns n → ∀ x ∈ ns, IsName x := by
  intro ns n hr
  induction hr with
  | here hm =>
    intro x hx
    cases List.mem_singleton.mp hx
    exact h _ _ (.here hm)
  | inside hm hk hr ih =>
    intro x hx
    rcases List.mem_cons.mp hx with rfl | hx
    · exact h _ _ (.here hm)
    · exact ih (fun ms m hr => h _ _ (.inside hm hk hr)) x hx

/-- The folders above an entry are in the image. -/
theorem reach_take : ∀ {es : List Node} {ns : List Str} {n : Node}, Reach es ns n → ∀ j, 0 < j → j < ns.length →
    ∃ m, Reach es (ns.take j) m ∧ m.inode.kind = .folder := by
  intro es ns n hr
  induction hr with
  | here hm => intro j h1 h2; simp at h2; omega
  | @inside es n m ns hm hk hr ih =>
    intro j h1 h2
    obtain ⟨j, rfl⟩ : ∃ i, j = i + 1 := ⟨j - 1, by omega⟩
    rw [List.take_succ_cons]
    by_cases hj : j = 0
    · subst hj
      exact ⟨n, by rw [List.take_zero]; exact .here hm, hk⟩
    · obtain ⟨m', h3, h4⟩ := ih j (by omega) (by simp at h2; omega)
      exact ⟨m', .inside hm hk h3, h4⟩

theorem rowAt_place {k : Pack} {x : Item} {p : Nat} (hn : ∀ y ∈ x.names, IsName y) :
    (x.names = [] → place (rowAt id k x p) = ([], [])) ∧
    (∀ ns n, x.names = ns ++ [n] → place (rowAt id k x p) = (folderPath ns, n)) := by
  constructor
  · intro h
    unfold place rowAt
    rw [h]
    show ((splitPath (normpath (canonical []))).1, (splitPath (normpath (canonical []))).2) = ([], [])
    decide +kernel
  · intro ns n h
    unfold place rowAt
    rw [h] at hn ⊢
    rw [id, C14_fixed _ hn, splitPath_canonical hn]

theorem folderPath_inj {a b : List Str} (ha : ∀ x ∈ a, IsName x) (hb : ∀ x ∈ b, IsName x) (h : folderPath a = folderPath b) : a = b := by
  have := congrArg (split '/') h
  rw [split_folderPath a ha, split_folderPath b hb] at this
  injection this

theorem place_names {k : Pack} {x y : Item} (hx : ∀ z ∈ x.names, IsName z) (hy : ∀ z ∈ y.names, IsName z) {p q : Nat}
    (h : place (rowAt id k x p) = place (rowAt id k y q)) : x.names = y.names := by
  rcases List.eq_nil_or_concat x.names with hxe | ⟨ms, m, hxe⟩
  · rcases List.eq_nil_or_concat y.names with hye | ⟨ns, n, hye⟩
    · rw [hxe, hye]
    · rw [List.concat_eq_append] at hye
      rw [(rowAt_place hx).1 hxe, (rowAt_place hy).2 ns n hye] at h
      injection h with h1 h2
      exact absurd h2.symm ((hy n (by rw [hye]; simp)).1)
  · rw [List.concat_eq_append] at hxe
    rcases List.eq_nil_or_concat y.names with hye | ⟨ns, n, hye⟩
    · rw [(rowAt_place hx).2 ms m hxe, (rowAt_place hy).1 hye] at h
      injection h with h1 h2
      exact absurd h2 ((hx m (by rw [hxe]; simp)).1)
    · rw [List.concat_eq_append] at hye
      rw [(rowAt_place hx).2 ms m hxe, (rowAt_place hy).2 ns n hye] at h
      injection h with h1 h2
      rw [hxe, hye, h2, folderPath_inj (fun z hz => hx z (by rw [hxe]; simp [hz])) (fun z hz => hy z (by rw [hye]; simp [hz])) h1]

theorem dirBit_folder {i : Inode} (h : i.kind = .folder) : dirBit (modeOf i) = true := by
  unfold modeOf
  rw [if_neg (by rw [h]; decide), if_pos h]
  unfold dirBit
  rw [Nat.testBit_or]
  rw [show Nat.testBit (4 * 4096) 14 = true from rfl, Bool.or_true]

theorem nodup_map_on {α β : Type} {f : α → β} : ∀ {l : List α}, (∀ x ∈ l, ∀ y ∈ l, f x = f y → x = y) → l.Nodup → (l.map f).Nodup
  | [], _, _ => List.nodup_nil
  | a :: l, h, hn => by
    rw [List.nodup_cons] at hn
    rw [List.map_cons, List.nodup_cons, List.mem_map]
    refine ⟨?_, nodup_map_on (fun x hx y hy => h x (List.mem_cons_of_mem _ hx) y (List.mem_cons_of_mem _ hy)) hn.2⟩
    rintro ⟨x, hx, he⟩
    have := h x (List.mem_cons_of_mem _ hx) a (by simp) he
    subst this
    exact hn.1 hx

theorem nodup_of_map {α β : Type} {f : α → β} : ∀ {l : List α}, (l.map f).Nodup → l.Nodup
  | [], _ => List.nodup_nil
  | a :: l, h => by
    rw [List.map_cons, List.nodup_cons] at h
    exact List.nodup_cons.mpr ⟨fun hm => h.1 (List.mem_map_of_mem hm), nodup_of_map h.2⟩

theorem names_inj {xs : List Item} (h : (xs.map Item.names).Nodup) {x y : Item} (hx : x ∈ xs) (hy : y ∈ xs) (he : x.names = y.names) : x = y := by
  induction xs with
  | nil => cases hx
  | cons z zs ih =>
    rw [List.map_cons, List.nodup_cons] at h
    rcases List.mem_cons.mp hx with hxz | hxz
    · rcases List.mem_cons.mp hy with hyz | hyz
      · rw [hxz, hyz]
      · subst hxz; exact absurd (List.mem_map.mpr ⟨y, hyz, he.symm⟩) h.1
    · rcases List.mem_cons.mp hy with hyz | hyz
      · subst hyz; exact absurd (List.mem_map.mpr ⟨x, hxz, he⟩) h.1
      · exact ih h.2 hxz hyz

theorem rowAt_key {transform : Str → Str} {k : Pack} {x : Item} {p : Nat} {ms : List Str} {m : Str}
    (h : splitPath (normpath (transform (canonical x.names))) = (folderPath ms, m)) :
    (rowAt transform k x p).1.path = folderPath ms ∧ (rowAt transform k x p).1.name = m :=
  ⟨congrArg Prod.fst h, congrArg Prod.snd h⟩

theorem item_names {b o : Nat} {i : Inode} {es : List Node} (h : Sound b o i es) {x : Item} (hx : x ∈ iterate b o i es) : ∀ z ∈ x.names, IsName z := by
  rcases iterate_mem.mp hx with rfl | ⟨ns, n, hr, rfl⟩
  · intro z hz; cases hz
  · exact reach_names (fun ns n hr => (h.node ns n hr).1) hr

theorem complete_rows {b o : Nat} {i : Inode} {es : List Node} (h : Sound b o i es) (k : Pack) :
    Complete ((iterate b o i es).map (fun x : Item => rowAt id k x (position x))) := by
  constructor
  · rw [List.map_map]
    refine nodup_map_on ?_ ?_
    · intro x hx y hy he
      exact names_inj (iterate_nodup h) hx hy (place_names (item_names h hx) (item_names h hy) he)
    · exact nodup_of_map (iterate_nodup h)
  · intro r hr p hp
    rw [List.mem_map] at hr
    obtain ⟨x, hx, rfl⟩ := hr
    rcases List.eq_nil_or_concat x.names with hxe | ⟨ms, m, hxe⟩
    · have := (rowAt_place (p := position x) (k := k) (item_names h hx)).1 hxe
      rw [show (rowAt id k x (position x)).1.path = [] from congrArg Prod.fst this] at hp
      obtain ⟨j, hj, -⟩ := (mem_ancestorPairs [] (by simp) p).mp hp
      simp at hj
    · rw [List.concat_eq_append] at hxe
      have hxn := item_names h hx
      have := (rowAt_place (p := position x) (k := k) hxn).2 ms m hxe
      have hms : ∀ z ∈ ms, IsName z := fun z hz => hxn z (by rw [hxe]; simp [hz])
      rw [show (rowAt id k x (position x)).1.path = folderPath ms from congrArg Prod.fst this] at hp
      obtain ⟨j, hj, rfl⟩ := (mem_ancestorPairs ms hms p).mp hp
      rcases iterate_mem.mp hx with rfl | ⟨ns, n, hr, rfl⟩
      · exact absurd hxe (by simp)
      · have hxe' : ns = ms ++ [m] := hxe
        obtain ⟨f, h1, h2⟩ := reach_take hr (j + 1) (by omega) (by rw [hxe']; simp; omega)
        refine ⟨_, List.mem_map.mpr ⟨⟨ns.take (j + 1), f.startBlock, f.offset, f.inode⟩, iterate_mem.mpr (.inr ⟨_, f, h1, rfl⟩), rfl⟩,
          dirBit_folder h2, ?_⟩
        refine (rowAt_place (fun z hz => hxn z (List.mem_of_mem_take hz))).2 (ms.take j) ms[j] ?_
        show ns.take (j + 1) = _
        rw [hxe', List.take_append_of_le_length (by omega), List.take_succ_eq_append_getElem hj]

theorem shown_row {k : Pack} {n : Node} (hp : n.inode.perms < 4096) (hf : Fits n.startBlock n.offset) (ns : List Str) (hu : Usual n) :
    Shown k n (toFileInfo (rowAt id k ⟨ns, n.startBlock, n.offset, n.inode⟩ (position ⟨ns, n.startBlock, n.offset, n.inode⟩))) := by
  have hmode : modeOf n.inode = n.inode.perms ||| n.inode.kind.bits * 4096 := by
    unfold modeOf Inode.mode
    rcases hu with h | h | h
    · rw [if_neg (by rw [h]; decide), if_neg (by rw [h]; decide), h, show Kind.bits .file = 8 from rfl, Nat.or_assoc, Nat.or_self]
    · rw [if_neg (by rw [h]; decide), if_pos h, h, show Kind.bits .folder = 4 from rfl, Nat.or_assoc, Nat.or_self]
    · rw [if_pos h, h, show Kind.bits .symlink = 10 from rfl, Nat.or_assoc, Nat.or_self]
  refine ⟨?_, ?_, ⟨0, 0, rfl⟩, ?_, ?_⟩
  · show typeBits (modeOf n.inode) = _
    rw [hmode]
    exact typeBits_or _ _ hp (by cases n.inode.kind <;> decide)
  · show modeOf n.inode % 4096 = _
    rw [hmode]
    rw [show (4096 : Nat) = 2 ^ 12 from rfl, Nat.or_mod_two_pow, Nat.mul_mod_left, Nat.or_zero, Nat.mod_eq_of_lt hp]
  · exact Int.natCast_nonneg _
  · obtain ⟨m, h1, -, h2⟩ := C67_roundtrip n.startBlock n.offset hf.1 hf.2
    unfold joinInode at h1
    rw [if_neg (by have := hf.1; omega), if_neg (by have := hf.2; omega)] at h1
    cases h1
    exact h2

/-! ## theorems -/

/-- **C168** (partial): an image can always be mounted; every file, folder and symbolic link in it is found at its path with its type,
permissions, size, time and link target, and reading it reads its inode. Missing: special files; see `C168_violated`. -/
theorem C168_partial (k : Pack) (b o : Nat) (i : Inode) (es : List Node) (h : Sound b o i es) :
    ∃ t, createIndex id k b o i es = .ok t ∧
      ∀ ns n, Reach es ns n → Usual n → ∃ fi, lookup t (canonical ns) 0 = some fi ∧ Shown k n fi := by
  refine ⟨_, createIndex_sound h id k, ?_⟩
  intro ns n hr hu
  obtain ⟨h1, h2, h3, -⟩ := h.node ns n hr
  have hx := iterate_mem (b := b) (o := o) (i := i).mpr (.inr ⟨ns, n, hr, rfl⟩)
  have hn := item_names h hx
  rcases List.eq_nil_or_concat ns with rfl | ⟨ms, m, hns⟩
  · exact absurd rfl (reach_ne hr)
  · rw [List.concat_eq_append] at hns
    subst hns
    have hpl := (rowAt_place (p := position ⟨ms ++ [m], n.startBlock, n.offset, n.inode⟩) (k := k) hn).2 ms m rfl
    exact ⟨_, complete_lookup (complete_rows h k) (List.mem_map_of_mem hx) hn (congrArg Prod.fst hpl) (congrArg Prod.snd hpl),
      shown_row h3 h2 _ hu⟩

/-- **C168**, paths that the user lets change: an entry is found where the transformation puts it, with its whole path. -/
theorem C168_transform (transform : Str → Str) (k : Pack) (b o : Nat) (i : Inode) (es : List Node) (h : Sound b o i es) :
    ∃ t, createIndex transform k b o i es = .ok t ∧
      ∀ ns n ms m, Reach es ns n → (∀ x ∈ ms ++ [m], IsName x) → transform (canonical ns) = canonical (ms ++ [m]) →
        ∃ fi, lookup t (canonical (ms ++ [m])) 0 = some fi := by
  refine ⟨_, createIndex_sound h transform k, ?_⟩
  intro ns n ms m hr hn ht
  have hx := iterate_mem (b := b) (o := o) (i := i).mpr (.inr ⟨ns, n, hr, rfl⟩)
  have hs : splitPath (normpath (transform (canonical ns))) = (folderPath ms, m) := by
    rw [ht, C14_fixed _ hn, splitPath_canonical hn]
  have hrow := rowAt_key (transform := transform) (k := k) (x := ⟨ns, n.startBlock, n.offset, n.inode⟩)
    (p := position ⟨ns, n.startBlock, n.offset, n.inode⟩) hs
  have hf := C17_entry_found [(iterate b o i es).map (fun x : Item => rowAt transform k x (position x))]
    (rowAt transform k ⟨ns, n.startBlock, n.offset, n.inode⟩ (position ⟨ns, n.startBlock, n.offset, n.inode⟩))
    (by rw [List.flatten_cons, List.flatten_nil, List.append_nil]; exact List.mem_map_of_mem (f := fun x : Item => rowAt transform k x (position x)) hx) ms
    ⟨hrow.1, fun x hx => hn x (List.mem_append_left _ hx), .inr (by rw [hrow.2]; exact hn m (by simp))⟩
    (by rw [hrow.2]; exact (hn m (by simp)).1)
  rw [hrow.2] at hf
  obtain ⟨⟨fi, hfi, _⟩, _⟩ := hf
  exact ⟨fi, hfi⟩

/-- **C168**: nothing else is found, in no version. -/
theorem C168_only (k : Pack) (b o : Nat) (i : Inode) (es : List Node) (h : Sound b o i es) (t : Table) (ht : createIndex id k b o i es = .ok t)
    (ns : List Str) (version : Int) (fi : FileInfo) (hne : ns ≠ []) (hn : ∀ x ∈ ns, IsName x)
    (hl : lookup t (canonical ns) version = some fi) :
    ∃ n, Reach es ns n ∧ fi.info.mode = modeOf n.inode ∧ (Usual n → Shown k n fi) := by
  rw [createIndex_sound h] at ht
  cases ht
  rcases List.eq_nil_or_concat ns with rfl | ⟨ms, m, hns⟩
  · exact absurd rfl hne
  · rw [List.concat_eq_append] at hns
    subst hns
    obtain ⟨r, hr, rfl, hp, hname⟩ := lookup_complete (complete_rows h k) hn hl
    rw [List.mem_map] at hr
    obtain ⟨x, hx, rfl⟩ := hr
    have hxn := item_names h hx
    have hns : x.names = ms ++ [m] := by
      have h1 : place (rowAt id k x (position x)) = place (rowAt id k ⟨ms ++ [m], 0, 0, i⟩ 0) := by
        rw [(rowAt_place (x := ⟨ms ++ [m], 0, 0, i⟩) hn).2 ms m rfl]
        unfold place
        rw [hp, hname]
      exact place_names hxn hn h1
    rcases iterate_mem.mp hx with rfl | ⟨ns', n, hr, rfl⟩
    · exact absurd hns (by simp)
    · have : ns' = ms ++ [m] := hns
      subst this
      obtain ⟨-, h2, h3, -⟩ := h.node _ n hr
      exact ⟨n, hr, rfl, shown_row h3 h2 _⟩

/-- **C168**: a character device is shown as a symbolic link without target, and a pipe with a type that does not exist. -/
theorem C168_special (i : Inode) (hp : i.perms < 4096) :
    (i.kind = .character → typeBits (modeOf i) = 10 ∧ linkOf i = []) ∧ (i.kind = .fifo → typeBits (modeOf i) = 9) ∧
    (i.kind = .block → typeBits (modeOf i) = 14) ∧ (i.kind = .socket → typeBits (modeOf i) = 12) := by
  have key : ∀ a b, a < 16 → b = 8 → (i.kind.bits = a) → i.kind ≠ .symlink → i.kind ≠ .folder → typeBits (modeOf i) = a ||| b := by
    intro a b ha hb hk h1 h2
    unfold modeOf Inode.mode
    rw [if_neg h1, if_neg h2, hk, Nat.or_assoc, hb]
    rw [show a * 4096 ||| 8 * 4096 = (a ||| 8) * 4096 by
      rw [show (4096 : Nat) = 2 ^ 12 from rfl, ← Nat.shiftLeft_eq, ← Nat.shiftLeft_eq, ← Nat.shiftLeft_eq, Nat.shiftLeft_or_distrib]]
    exact typeBits_or _ _ hp (Nat.or_lt_two_pow (n := 4) ha (by decide))
  refine ⟨fun h => ⟨?_, ?_⟩, fun h => ?_, fun h => ?_, fun h => ?_⟩
  · rw [key 2 8 (by decide) rfl (by rw [h]; rfl) (by rw [h]; decide) (by rw [h]; decide)]; rfl
  · unfold linkOf; rw [if_neg (by rw [h]; decide)]
  · rw [key 1 8 (by decide) rfl (by rw [h]; rfl) (by rw [h]; decide) (by rw [h]; decide)]; rfl
  · rw [key 6 8 (by decide) rfl (by rw [h]; rfl) (by rw [h]; decide) (by rw [h]; decide)]; rfl
  · rw [key 12 8 (by decide) rfl (by rw [h]; rfl) (by rw [h]; decide) (by rw [h]; decide)]; rfl

/-- **C168**: the owner of a file is not shown: everything belongs to the user 0. -/
theorem C168_owner (transform : Str → Str) (k : Pack) (x : Item) (r : Row) (h : convert transform k x = .ok r) :
    ∃ size time target, r.2.rest = k.pack size time target 0 0 := by
  unfold convert at h
  split at h
  · cases h
  · cases h; exact ⟨_, _, _, rfl⟩

/-- A root folder. -/
def demoRoot : Inode := ⟨.folder, 0o755, 3, 9, [], 0, 0⟩

/-- The device /dev/null. -/
def demoNull : Node := .mk "null".toList 0 32 ⟨.character, 0o666, 0, 7, [], 0, 0⟩ []

/-- /dev with /dev/null, and a file. -/
def demoEntries : List Node := [.mk "dev".toList 0 64 demoRoot [demoNull], .mk "f".toList 1 5 ⟨.file, 0o644, 10, 7, [], 1000, 1000⟩ []]

theorem demo_sound : Sound 0 0 demoRoot demoEntries := by
  refine ⟨⟨⟨by decide, by decide⟩, rfl, by decide⟩, ?_⟩
  intro ns n hr
  have key : n ∈ demoEntries ∨ n = demoNull := by
    cases hr with
    | here hm => exact .inl hm
    | @inside _ e _ ms hm hk hr =>
      rcases List.mem_cons.mp hm with rfl | hm
      · cases hr with
        | here hm => exact .inr (List.mem_singleton.mp hm)
        | inside hm hk _ => cases List.mem_singleton.mp hm; cases hk
      · cases List.mem_singleton.mp hm; cases hk
  rcases key with hm | rfl
  · rcases List.mem_cons.mp hm with rfl | hm
    · exact ⟨by unfold IsName; decide, ⟨by decide, by decide⟩, by decide, by decide⟩
    · cases List.mem_singleton.mp hm
      exact ⟨by unfold IsName; decide, ⟨by decide, by decide⟩, by decide, by decide⟩
  · exact ⟨by unfold IsName; decide, ⟨by decide, by decide⟩, by decide, by decide⟩

theorem demo_null : Reach demoEntries ["dev".toList, "null".toList] demoNull :=
  .inside (n := .mk "dev".toList 0 64 demoRoot [demoNull]) (by simp [demoEntries]) rfl (.here (n := demoNull) (by simp [Node.entries]))

/-- **C168 is violated by the code**: /dev/null in an image is shown as a symbolic link. -/
theorem C168_violated : ¬ C168_statement := by
  intro h
  obtain ⟨t, ht, h1, -⟩ := h ⟨fun _ _ _ _ _ => 0⟩ 0 0 demoRoot demoEntries demo_sound
  obtain ⟨fi, hl, hs⟩ := h1 _ _ demo_null
  have hn : ∀ x ∈ ["dev".toList, "null".toList], IsName x := by
    intro x hx
    simp only [List.mem_cons, List.not_mem_nil, or_false] at hx
    rcases hx with rfl | rfl <;> (unfold IsName; decide)
  obtain ⟨n, hr, hm, -⟩ := C168_only _ 0 0 demoRoot demoEntries demo_sound t ht _ 0 fi (by simp) hn hl
  have hnull : n = demoNull := by
    generalize hns : ["dev".toList, "null".toList] = ns at hr
    cases hr with
    | here _ => exact absurd (congrArg List.length hns) (by simp)
    | @inside _ e _ ms hmem hk hr =>
      injection hns with _ hns
      cases hr with
      | here hm2 =>
        rcases List.mem_cons.mp hmem with rfl | hmem
        · exact List.mem_singleton.mp hm2
        · cases List.mem_singleton.mp hmem; cases hk
      | inside _ _ hr =>
        injection hns with _ hns
        exact absurd hns.symm (reach_ne hr)
  subst hnull
  have h2 := hs.1
  rw [hm] at h2
  exact absurd h2 (by decide)

example : Reach demoEntries ["f".toList] (.mk "f".toList 1 5 ⟨.file, 0o644, 10, 7, [], 1000, 1000⟩ []) ∧
    Usual (.mk "f".toList 1 5 ⟨.file, 0o644, 10, 7, [], 1000, 1000⟩ []) :=
  ⟨.here (n := .mk "f".toList 1 5 ⟨.file, 0o644, 10, 7, [], 1000, 1000⟩ []) (by simp [demoEntries]), .inl rfl⟩

end Verif.SquashFSRows
