import Verif.Py
import Verif.FileSpec
import Verif.Fat.Table

/-!
# C68, C70: cluster chains and files of FAT volumes
(core/ratarmountcore/_external/pyfatfs/PyFat.py:46-72, 130-140, 545-581; FatIO.py:47-176)

The contents of a cluster are a function of its number here; where they are on the disk (534-543) is not modelled.
-/

namespace Verif.FatChain

open Verif.Py Verif.FileSpec
open Verif.FatTable (Kind)

/-- `MAX_DATA_CLUSTER` (PyFat.py:47-68). -/
def maxData : Kind → Nat
  | .fat12 => 0xFEF
  | .fat16 => 0xFFEF
  | .fat32 => 0x0FFFFFEF

/-- `END_OF_CLUSTER_MIN` (PyFat.py:47-68). -/
def eocMin : Kind → Nat
  | .fat12 => 0xFF8
  | .fat16 => 0xFFF8
  | .fat32 => 0xFFFFFF8

/-- `END_OF_CLUSTER_MAX` (PyFat.py:47-68). -/
def eocMax : Kind → Nat
  | .fat12 => 0xFFF
  | .fat16 => 0xFFFF
  | .fat32 => 0xFFFFFFF

/-- What `next` on the generator does: the cluster and the next value of `i`; after `return` there is none (PyFat.py:546-581). -/
abbrev Gen := Option Nat

/-- One round of `get_cluster_chain` (PyFat.py:554-581). The three kinds of bad values are one exception here. -/
def genNext (kind : Kind) (fat : List Nat) : Gen → Except PyErr (Option (Nat × Gen))
  | none => .ok none
  | some i =>
    if i ≤ fat.length then
      match fat[i]? with
      | none => .error .indexError
      | some v =>
        if 2 ≤ v ∧ v ≤ maxData kind then .ok (some (i, some v))
        else if kind = .fat12 ∧ v = 0xFF0 then .ok (some (i, none))
        else if eocMin kind ≤ v ∧ v ≤ eocMax kind then .ok (some (i, none))
        else .error .fat
    else .ok none

/-- How the generator went on after some clusters (PyFat.py:546-581). -/
inductive Outcome where
  | stopped
  | failed (e : PyErr)
  | more
  deriving DecidableEq, Repr

/-- The first `n` clusters of the generator, and how it went on (PyFat.py:546-581). -/
def collect (kind : Kind) (fat : List Nat) : Nat → Gen → List Nat × Outcome
  | 0, _ => ([], .more)
  | n + 1, g => match genNext kind fat g with
    | .error e => ([], .failed e)
    | .ok none => ([], .stopped)
    | .ok (some (c, g')) => (c :: (collect kind fat n g').1, (collect kind fat n g').2)

/-- A mounted volume: the table, the bytes per cluster, `read_cluster_contents` (PyFat.py:130-140). -/
structure Volume (α : Type) where
  kind : Kind
  fat : List Nat
  bpc : Nat
  cluster : Nat → List α

/-- The directory entry of a file (FATDirectoryEntry.py:60-116). -/
structure Entry where
  first : Nat
  size : Nat
  deriving DecidableEq, Repr

/-- `FatIO` (FatIO.py:47-54). -/
structure FatFile where
  bpos : Int
  cpos : Nat
  cindex : Int
  coffpos : Int
  deriving DecidableEq, Repr

/-- `__init__` (FatIO.py:25-60). -/
def openFile (e : Entry) : FatFile := ⟨0, e.first, 0, 0⟩

/-- `next(fp)` for `n` times (FatIO.py:110-111), after `last`. `StopIteration` is an error here. -/
def draw (kind : Kind) (fat : List Nat) : Nat → Gen → Nat → Except PyErr Nat
  | 0, _, last => .ok last
  | n + 1, g, _ => match genNext kind fat g with
    | .error e => .error e
    | .ok none => .error .runtimeError
    | .ok (some (c, g')) => draw kind fat n g' c

/-- Where a position is (FatIO.py:89-101): cluster index and offset in the cluster. -/
def locate (bpc size : Nat) (offset : Int) : Int × Int :=
  if offset = size ∧ offset > 0 ∧ offset % bpc = 0 then (offset / bpc - 1, bpc) else (offset / bpc, offset % bpc)

/-- The position that is asked for (FatIO.py:82-88). -/
def FatFile.target (e : Entry) (f : FatFile) (offset : Int) : Whence → Int
  | .set => offset
  | .cur => offset + f.bpos
  | .end_ => offset + e.size

/-- `seek` (FatIO.py:72-113). -/
def FatFile.seek {α : Type} (v : Volume α) (e : Entry) (f : FatFile) (offset : Int) (whence : Whence) : Except PyErr (Int × FatFile) :=
  let o := min (f.target e offset whence) e.size
  let l := locate v.bpc e.size o
  let cpos := if l.1 < f.cindex then e.first else f.cpos
  let prev := if l.1 < f.cindex then 0 else f.cindex
  if l.1 > prev then
    match draw v.kind v.fat (l.1 - prev + 1).toNat (some cpos) cpos with
    | .error x => .error x
    | .ok c => .ok (o, ⟨o, c, l.1, l.2⟩)
  else .ok (o, ⟨o, cpos, l.1, l.2⟩)

/-- The loop of `read` (FatIO.py:146-161): the bytes and their number. All rounds but the first read at least a byte, so `fuel` is
`size + 1`. -/
def readLoop {α : Type} (v : Volume α) (size : Int) : Nat → Gen → Int → Int → List α → Except PyErr (List α × Int)
  | 0, _, _, read, acc => .ok (acc, read)
  | fuel + 1, g, off, read, acc => match genNext v.kind v.fat g with
    | .error e => .error e
    | .ok none => .ok (acc, read)
    | .ok (some (c, g')) =>
      let n := if read + (v.bpc - off) > size then size - read else v.bpc - off
      let acc := acc ++ ((v.cluster c).drop off.toNat).take n.toNat
      if read + n = size then .ok (acc, read + n) else readLoop v size fuel g' 0 (read + n) acc

/-- `read` (FatIO.py:133-169). -/
def FatFile.read {α : Type} (v : Volume α) (e : Entry) (f : FatFile) (n : Int) : Except PyErr (List α × FatFile) :=
  let size := if n + f.bpos > e.size ∨ n < 0 then e.size - f.bpos else n
  if size = 0 then .ok ([], f)
  else match readLoop v size (size.toNat + 1) (some f.cpos) f.coffpos 0 [] with
    | .error x => .error x
    | .ok (data, read) => match f.seek v e read .cur with
      | .error x => .error x
      | .ok (_, f) => if (data.length : Int) ≠ size then .error .runtimeError else .ok (data, f)

/-- One call; `tell` is `seek(0, 1)` (`io.IOBase`) (FatIO.py:72-169). -/
def FatFile.step {α : Type} (v : Volume α) (e : Entry) (f : FatFile) : FileOp → FatFile × FileOut α
  | .read n => match f.read v e n with
    | .error x => (f, .err x)
    | .ok (d, f') => (f', .bytes d)
  | .seek o w => match f.seek v e o w with
    | .error x => (f, .err x)
    | .ok (r, f') => (f', .num r)
  | .tell => match f.seek v e 0 .cur with
    | .error x => (f, .err x)
    | .ok (r, f') => (f', .num r)

/-- Calls one after the other (FatIO.py:72-169). -/
def FatFile.run {α : Type} (v : Volume α) (e : Entry) (f : FatFile) : List FileOp → List (FileOut α)
  | [] => []
  | op :: ops => (f.step v e op).2 :: (f.step v e op).1.run v e ops

/-! ## specification -/

/-- The number of bits of an entry. -/
def bits : Kind → Nat
  | .fat12 => 12
  | .fat16 => 16
  | .fat32 => 28

/-- Entries of a table that continue a chain: the sixteen largest numbers are reserved. -/
def IsData (kind : Kind) (v : Nat) : Prop := 2 ≤ v ∧ v < 2 ^ bits kind - 16

/-- Entries of a table that end a chain: the eight largest numbers. FAT12 has another one. -/
def IsEnd (kind : Kind) (v : Nat) : Prop := (2 ^ bits kind - 8 ≤ v ∧ v < 2 ^ bits kind) ∨ (kind = .fat12 ∧ v = 0xFF0)

/-- The clusters of a chain from its first one to the one with the end mark. -/
inductive Chain (kind : Kind) (fat : List Nat) : Nat → List Nat → Prop
  | last {i v : Nat} : fat[i]? = some v → IsEnd kind v → Chain kind fat i [i]
  | next {i v : Nat} {cs : List Nat} : fat[i]? = some v → IsData kind v → Chain kind fat v cs → Chain kind fat i (i :: cs)

/-- Following a chain ends, with the clusters up to the end mark or with an error. -/
def C70_statement : Prop :=
  ∀ (kind : Kind) (fat : List Nat) (first : Nat), ∃ n cs, collect kind fat n (some first) = (cs, .stopped) ∧
    Chain kind fat first cs ∨ ∃ e, collect kind fat n (some first) = (cs, .failed e)

/-- A file whose positions stay inside of it. -/
structure ClampIO (α : Type) where
  content : List α
  pos : Nat

def ClampIO.target {α : Type} (m : ClampIO α) (o : Int) : Whence → Int
  | .set => o
  | .cur => m.pos + o
  | .end_ => m.content.length + o

def ClampIO.step {α : Type} (m : ClampIO α) : FileOp → ClampIO α × FileOut α
  | .read n =>
    let left := m.content.drop m.pos
    let data := if n < 0 then left else left.take n.toNat
    ({ m with pos := m.pos + data.length }, .bytes data)
  | .seek o w => if m.target o w < 0 then (m, .err .valueError)
    else ({ m with pos := min (m.target o w).toNat m.content.length }, .num (min (m.target o w) m.content.length))
  | .tell => (m, .num m.pos)

def ClampIO.run {α : Type} (m : ClampIO α) : List FileOp → List (FileOut α)
  | [] => []
  | op :: ops => (m.step op).2 :: (m.step op).1.run ops

/-- The operation asks for no negative position. -/
def ClampIO.fine {α : Type} (m : ClampIO α) : FileOp → Bool
  | .seek o w => decide (0 ≤ m.target o w)
  | _ => true

def ClampIO.accepts {α : Type} (m : ClampIO α) : List FileOp → Bool
  | [] => true
  | op :: ops => m.fine op && (m.step op).1.accepts ops

/-- The volume holds this file: its clusters in the order of the chain, cut off at its size. Empty files need no cluster. -/
structure Stored {α : Type} (v : Volume α) (e : Entry) (cs : List Nat) (content : List α) : Prop where
  bpc : 0 < v.bpc
  chain : 0 < e.size → Chain v.kind v.fat e.first cs
  full : ∀ c ∈ cs, (v.cluster c).length = v.bpc
  enough : e.size ≤ cs.length * v.bpc
  content : content = (cs.flatMap v.cluster).take e.size

/-- Every history gives what a file in memory gives. -/
def C68_statement (α : Type) : Prop :=
  ∀ (v : Volume α) (e : Entry) (cs : List Nat) (content : List α) (ops : List FileOp), Stored v e cs content →
    (openFile e).run v e ops = (ClampIO.mk content 0).run ops

/-! ## proofs: chains -/

theorem isData_iff (kind : Kind) (v : Nat) : IsData kind v ↔ 2 ≤ v ∧ v ≤ maxData kind := by
  cases kind <;> simp only [IsData, bits, maxData] <;> omega

theorem isEnd_iff (kind : Kind) (v : Nat) : IsEnd kind v ↔ (eocMin kind ≤ v ∧ v ≤ eocMax kind) ∨ (kind = .fat12 ∧ v = 0xFF0) := by
  have h : (2 ^ bits kind - 8 ≤ v ∧ v < 2 ^ bits kind) ↔ (eocMin kind ≤ v ∧ v ≤ eocMax kind) := by
    cases kind <;> simp only [bits, eocMin, eocMax] <;> omega
  rw [IsEnd, h]

theorem genNext_data {kind : Kind} {fat : List Nat} {i v : Nat} (h : fat[i]? = some v) (hv : IsData kind v) :
    genNext kind fat (some i) = .ok (some (i, some v)) := by
  have hi := (List.getElem?_eq_some_iff.mp h).1
  unfold genNext
  simp only [if_pos (Nat.le_of_lt hi), h]
  rw [if_pos ((isData_iff kind v).mp hv)]

theorem genNext_end {kind : Kind} {fat : List Nat} {i v : Nat} (h : fat[i]? = some v) (hv : IsEnd kind v) :
    genNext kind fat (some i) = .ok (some (i, none)) := by
  have hi := (List.getElem?_eq_some_iff.mp h).1
  rw [isEnd_iff] at hv
  have hnd : ¬ (2 ≤ v ∧ v ≤ maxData kind) := by
    rcases hv with hv | hv
    · cases kind <;> simp only [eocMin, maxData] at * <;> omega
    · obtain ⟨rfl, rfl⟩ := hv
      simp only [maxData]; omega
  unfold genNext
  simp only [if_pos (Nat.le_of_lt hi), h]
  rw [if_neg hnd]
  split
  · rfl
  · next h2 =>
    rcases hv with hv | hv
    · rw [if_pos hv]
    · exact absurd hv h2

/-- **C70**, proper chains: following gives the clusters up to the end mark and then ends. -/
theorem C70_chain {kind : Kind} {fat : List Nat} {first : Nat} {cs : List Nat} (h : Chain kind fat first cs) :
    collect kind fat (cs.length + 1) (some first) = (cs, .stopped) := by
  induction h with
  | last h hv =>
    simp only [List.length_singleton, collect, genNext_end h hv]
    rfl
  | next h hv _ ih =>
    rw [List.length_cons, collect, genNext_data h hv]
    simp only [ih]

/-- **C70**: what the end of the generator means. Either the chain is proper, or it left the table. -/
theorem C70_stopped (kind : Kind) (fat : List Nat) : ∀ (n first : Nat) (cs : List Nat),
    collect kind fat n (some first) = (cs, .stopped) →
    Chain kind fat first cs ∨ (cs = [] ∧ fat.length < first) ∨
      ∃ c v, cs.getLast? = some c ∧ fat[c]? = some v ∧ IsData kind v ∧ fat.length < v := by
  intro n
  induction n with
  | zero => intro first cs h; simp [collect] at h
  | succ n ih =>
    intro first cs h
    rw [collect] at h
    by_cases hf : first ≤ fat.length
    · cases hv : fat[first]? with
      | none => simp [genNext, hf, hv] at h
      | some v =>
        by_cases hd : IsData kind v
        · rw [genNext_data hv hd] at h
          simp only [Prod.mk.injEq] at h
          obtain ⟨h1, h2⟩ := h
          cases hc : collect kind fat n (some v) with
          | mk cs' o =>
            rw [hc] at h1 h2
            simp only at h1 h2
            subst h2
            rcases ih v cs' hc with hch | ⟨hnil, hlt⟩ | ⟨c, w, hl, hw⟩
            · exact Or.inl (h1 ▸ Chain.next hv hd hch)
            · refine Or.inr (Or.inr ⟨first, v, ?_, hv, hd, hlt⟩)
              rw [← h1, hnil]
              rfl
            · refine Or.inr (Or.inr ⟨c, w, ?_, hw⟩)
              rw [← h1]
              cases cs' with
              | nil => simp at hl
              | cons x xs => rw [List.getLast?_cons_cons]; exact hl
        · by_cases he : IsEnd kind v
          · rw [genNext_end hv he] at h
            cases n with
            | zero => simp [collect] at h
            | succ n =>
              simp only [collect, genNext, Prod.mk.injEq] at h
              exact Or.inl (h.1 ▸ Chain.last hv he)
          · exfalso
            have : genNext kind fat (some first) = .error .fat := by
              unfold genNext
              simp only [if_pos hf, hv]
              rw [if_neg (fun h => hd ((isData_iff kind v).mpr h)), if_neg (fun h => he ((isEnd_iff kind v).mpr (Or.inr h))),
                if_neg (fun h => he ((isEnd_iff kind v).mpr (Or.inl h)))]
            rw [this] at h
            simp at h
    · have : genNext kind fat (some first) = .ok none := by
        unfold genNext
        simp only [if_neg hf]
      rw [this] at h
      simp only [Prod.mk.injEq] at h
      exact Or.inr (Or.inl ⟨h.1.symm, by omega⟩)

/-- **C70**: an entry that is neither a cluster nor an end mark is an error. -/
theorem C70_bad (kind : Kind) (fat : List Nat) (first v : Nat) (h : fat[first]? = some v) (hd : ¬ IsData kind v)
    (he : ¬ IsEnd kind v) (n : Nat) : collect kind fat (n + 1) (some first) = ([], .failed .fat) := by
  have hi := (List.getElem?_eq_some_iff.mp h).1
  rw [collect]
  have : genNext kind fat (some first) = .error .fat := by
    unfold genNext
    simp only [if_pos (Nat.le_of_lt hi), h]
    rw [if_neg (fun h => hd ((isData_iff kind v).mpr h)), if_neg (fun h => he ((isEnd_iff kind v).mpr (Or.inr h))),
                if_neg (fun h => he ((isEnd_iff kind v).mpr (Or.inl h)))]
  rw [this]

/-- Free and bad clusters are such entries. -/
example : ¬ IsData .fat16 0 ∧ ¬ IsEnd .fat16 0 ∧ ¬ IsData .fat16 0xFFF7 ∧ ¬ IsEnd .fat16 0xFFF7 := by
  simp [IsData, IsEnd, bits]

theorem collect_lt (kind : Kind) (fat : List Nat) : ∀ (n : Nat) (g : Gen), ∀ c ∈ (collect kind fat n g).1, c < fat.length := by
  intro n
  induction n with
  | zero => intro g c hc; simp [collect] at hc
  | succ n ih =>
    intro g c hc
    rw [collect] at hc
    split at hc
    · simp at hc
    · simp at hc
    · next c' g' hg =>
      rcases List.mem_cons.mp hc with rfl | hc
      · cases g with
        | none => simp [genNext] at hg
        | some i =>
          unfold genNext at hg
          simp only at hg
          split at hg
          · split at hg
            · cases hg
            · next v hv =>
              have hi := (List.getElem?_eq_some_iff.mp hv).1
              split at hg
              · simp only [Except.ok.injEq, Option.some.injEq, Prod.mk.injEq] at hg; omega
              · split at hg
                · simp only [Except.ok.injEq, Option.some.injEq, Prod.mk.injEq] at hg; omega
                · split at hg
                  · simp only [Except.ok.injEq, Option.some.injEq, Prod.mk.injEq] at hg; omega
                  · cases hg
          · simp at hg
      · exact ih g' c hc

theorem collect_more_length (kind : Kind) (fat : List Nat) : ∀ (n : Nat) (g : Gen), (collect kind fat n g).2 = .more →
    (collect kind fat n g).1.length = n := by
  intro n
  induction n with
  | zero => intro g _; rfl
  | succ n ih =>
    intro g h
    rw [collect] at h ⊢
    split
    · next e he => rw [he] at h; simp at h
    · next he => rw [he] at h; simp at h
    · next c g' hg =>
      rw [hg] at h
      simp only at h
      simp only [List.length_cons, ih g' h]

/-- Different numbers below `n` are at most `n`. -/
theorem nodup_length (n : Nat) : ∀ l : List Nat, l.Nodup → (∀ x ∈ l, x < n) → l.length ≤ n := by
  induction n with
  | zero =>
    intro l _ h
    cases l with
    | nil => exact Nat.le_refl _
    | cons x l => exact absurd (h x List.mem_cons_self) (Nat.not_lt_zero _)
  | succ n ih =>
    intro l hn h
    have h1 : (l.erase n).length ≤ n := ih _ (hn.erase n) (by
      intro x hx
      have := h x (List.mem_of_mem_erase hx)
      have hne : x ≠ n := by
        intro he
        rw [he] at hx
        exact (List.Nodup.not_mem_erase hn) hx
      omega)
    have h2 := List.length_erase_of_mem (a := n) (l := l)
    by_cases hm : n ∈ l
    · have := h2 hm; omega
    · have : l.erase n = l := List.erase_of_not_mem hm
      rw [this] at h1
      omega

/-- **C70**, provable part: following ends unless it comes to a cluster for a second time. Missing: chains with a cycle, and an
error for chains that leave the table. -/
theorem C70_ends_partial (kind : Kind) (fat : List Nat) (first : Nat)
    (h : (collect kind fat (fat.length + 1) (some first)).1.Nodup) :
    (collect kind fat (fat.length + 1) (some first)).2 ≠ .more := by
  intro hm
  have h1 := collect_more_length kind fat _ _ hm
  have h2 := nodup_length fat.length _ h (collect_lt kind fat _ _)
  omega

example : (collect .fat16 [0xFFF8, 0xFFFF, 4, 0xFFFF, 3] 6 (some 2)) = ([2, 4, 3], .stopped) := by decide

example : Chain .fat16 [0xFFF8, 0xFFFF, 4, 0xFFFF, 3] 2 [2, 4, 3] :=
  .next (v := 4) rfl (by simp [IsData, bits]) (.next (v := 3) rfl (by simp [IsData, bits])
    (.last (v := 0xFFFF) rfl (Or.inl (by simp [bits]))))

/-- C70 is violated: a chain with a cycle is followed forever. -/
theorem C70_violated : ¬ C70_statement := by
  intro h
  obtain ⟨n, cs, h⟩ := h .fat16 [0xFFF8, 0xFFFF, 2] 2
  have key : ∀ n, (collect .fat16 [0xFFF8, 0xFFFF, 2] n (some 2)).2 = .more := by
    intro n
    induction n with
    | zero => rfl
    | succ n ih =>
      have hg : genNext .fat16 [0xFFF8, 0xFFFF, 2] (some 2) = .ok (some (2, some 2)) := by decide
      rw [collect, hg]
      exact ih
  rcases h with ⟨h, _⟩ | ⟨e, h⟩
  · have := key n; rw [h] at this; cases this
  · have := key n; rw [h] at this; cases this

/-- C70 is violated: a chain that leaves the table ends as if it were complete. -/
theorem C70_range_violated : collect .fat16 [0xFFF8, 0xFFFF, 9] 2 (some 2) = ([2], .stopped) ∧
    ¬ Chain .fat16 [0xFFF8, 0xFFFF, 9] 2 [2] := by
  refine ⟨by decide, ?_⟩
  intro h
  cases h with
  | last h hv =>
    simp only [List.getElem?_cons_succ, List.getElem?_cons_zero, Option.some.injEq] at h
    subst h
    simp [IsEnd, bits] at hv
  | next h hv hc => cases hc

/-! ## proofs: files -/

theorem chain_drop {kind : Kind} {fat : List Nat} {i : Nat} {cs : List Nat} (h : Chain kind fat i cs) :
    ∀ (j : Nat) (hj : j < cs.length), Chain kind fat cs[j] (cs.drop j) := by
  induction h with
  | last h hv =>
    intro j hj
    cases j with
    | zero => exact .last h hv
    | succ j => simp at hj
  | next h hv hc ih =>
    intro j hj
    cases j with
    | zero => exact .next h hv hc
    | succ j =>
      simp only [List.getElem_cons_succ, List.drop_succ_cons]
      exact ih j (by simpa using hj)

theorem chain_head {kind : Kind} {fat : List Nat} {i : Nat} {cs : List Nat} (h : Chain kind fat i cs) :
    cs[0]? = some i := by
  cases h <;> rfl

theorem draw_chain {kind : Kind} {fat : List Nat} {i : Nat} {cs : List Nat} (h : Chain kind fat i cs) :
    ∀ (k last : Nat) (hk : k < cs.length), draw kind fat (k + 1) (some i) last = .ok cs[k] := by
  induction h with
  | last h hv =>
    intro k last hk
    cases k with
    | zero => simp only [draw, genNext_end h hv, List.getElem_cons_zero]
    | succ k => simp at hk
  | next h hv hc ih =>
    intro k last hk
    rw [draw, genNext_data h hv]
    simp only
    cases k with
    | zero => rfl
    | succ k =>
      rw [ih k _ (by simpa using hk)]
      rfl

theorem flatMap_length {α : Type} (cl : Nat → List α) (b : Nat) : ∀ cs : List Nat, (∀ c ∈ cs, (cl c).length = b) →
    (cs.flatMap cl).length = cs.length * b := by
  intro cs
  induction cs with
  | nil => intro _; simp
  | cons c cs ih =>
    intro h
    rw [List.flatMap_cons, List.length_append, h c List.mem_cons_self, ih (fun x hx => h x (List.mem_cons_of_mem _ hx)),
      List.length_cons, Nat.add_mul]
    omega

theorem flatMap_drop {α : Type} (cl : Nat → List α) (b : Nat) : ∀ (cs : List Nat) (j : Nat), (∀ c ∈ cs, (cl c).length = b) →
    (cs.flatMap cl).drop (j * b) = (cs.drop j).flatMap cl := by
  intro cs
  induction cs with
  | nil => intro j _; simp
  | cons c cs ih =>
    intro j h
    cases j with
    | zero => simp
    | succ j =>
      have hc := h c List.mem_cons_self
      rw [List.flatMap_cons, List.drop_succ_cons, ← ih j (fun x hx => h x (List.mem_cons_of_mem _ hx))]
      have : (j + 1) * b = (cl c).length + j * b := by rw [hc, Nat.add_mul]; omega
      rw [this, ← List.drop_drop, List.drop_left]

/-- The loop of `read` gives the next bytes of the chain. -/
theorem readLoop_chain {α : Type} (v : Volume α) {i : Nat} {cs : List Nat} (h : Chain v.kind v.fat i cs)
    (hb : 0 < v.bpc) : ∀ (fuel off need read : Nat) (acc : List α), (∀ c ∈ cs, (v.cluster c).length = v.bpc) →
    off < v.bpc → 0 < need → need ≤ fuel → off + need ≤ cs.length * v.bpc →
    readLoop v ((read + need : Nat) : Int) fuel (some i) off read acc =
      .ok (acc ++ ((cs.flatMap v.cluster).drop off).take need, ((read + need : Nat) : Int)) := by
  induction h with
  | @last i x h hv =>
    intro fuel off need read acc hf ho hn hfuel he
    cases fuel with
    | zero => omega
    | succ fuel =>
      have hl := hf i (by simp)
      simp only [List.length_singleton] at he
      rw [readLoop, genNext_end h hv]
      have hif : (if (read : Int) + (v.bpc - off) > ((read + need : Nat) : Int) then ((read + need : Nat) : Int) - read
          else (v.bpc : Int) - off) = (need : Int) := by
        split <;> omega
      simp only [hif]
      rw [if_pos (by omega)]
      simp
  | @next i x cs h hv hc ih =>
    intro fuel off need read acc hf ho hn hfuel he
    cases fuel with
    | zero => omega
    | succ fuel =>
      have hl := hf i (by simp)
      rw [readLoop, genNext_data h hv]
      by_cases hbig : off + need ≤ v.bpc
      · have hif : (if (read : Int) + (v.bpc - off) > ((read + need : Nat) : Int) then ((read + need : Nat) : Int) - read
            else (v.bpc : Int) - off) = (need : Int) := by
          split <;> omega
        simp only [hif]
        rw [if_pos (by omega), List.flatMap_cons, List.drop_append_of_le_length (by omega),
          List.take_append_of_le_length (by simp; omega)]
        simp
      · have hif : (if (read : Int) + (v.bpc - off) > ((read + need : Nat) : Int) then ((read + need : Nat) : Int) - read
            else (v.bpc : Int) - off) = ((v.bpc - off : Nat) : Int) := by
          split <;> omega
        simp only [hif]
        rw [if_neg (by omega)]
        have h1 : ((read : Int) + ((v.bpc - off : Nat) : Int)) = ((read + (v.bpc - off) : Nat) : Int) := by omega
        have h2 : read + need = (read + (v.bpc - off)) + (need - (v.bpc - off)) := by omega
        rw [h1, h2]
        have h3 := ih fuel 0 (need - (v.bpc - off)) (read + (v.bpc - off))
          (acc ++ ((v.cluster i).drop (off : Int).toNat).take ((v.bpc - off : Nat) : Int).toNat)
          (fun c hc => hf c (List.mem_cons_of_mem _ hc)) hb (by omega) (by omega)
          (by simp only [List.length_cons, Nat.add_mul] at he; omega)
        simp only [List.drop_zero, Int.cast_ofNat_Int] at h3
        refine h3.trans ?_
        rw [List.flatMap_cons, List.drop_append_of_le_length (by omega), List.take_append]
        simp only [Int.toNat_natCast, List.length_drop, hl, List.append_assoc]
        rw [List.take_of_length_le (by simp; omega), List.take_of_length_le (i := need) (by simp; omega)]

/-- The position of the file object is `p`. -/
structure At {α : Type} (v : Volume α) (e : Entry) (cs : List Nat) (f : FatFile) (p : Nat) : Prop where
  le : p ≤ e.size
  bpos : f.bpos = p
  pos : 0 ≤ f.cindex
  off : 0 ≤ f.coffpos
  split : f.cindex.toNat * v.bpc + f.coffpos.toNat = p
  inside : p < e.size → f.coffpos < v.bpc
  cluster : 0 < e.size → cs[f.cindex.toNat]? = some f.cpos
  empty : e.size = 0 → f.cindex = 0

theorem at_open {α : Type} {v : Volume α} {e : Entry} {cs : List Nat} {content : List α} (h : Stored v e cs content) :
    At v e cs (openFile e) 0 where
  le := Nat.zero_le _
  bpos := rfl
  pos := Int.le_refl _
  off := Int.le_refl _
  split := by simp [openFile]
  inside := by intro _; have := h.bpc; simp only [openFile]; omega
  cluster := by intro hs; exact chain_head (h.chain hs)
  empty := fun _ => rfl

theorem locate_spec (bpc size p : Nat) (hb : 0 < bpc) (hp : p ≤ size) : ∃ j o : Nat, locate bpc size p = ((j : Int), (o : Int)) ∧
    j * bpc + o = p ∧ (p < size → o < bpc) ∧ (∀ n, 0 < size → size ≤ n * bpc → j < n) ∧ (size = 0 → j = 0) := by
  unfold locate
  have hdm := Nat.div_add_mod p bpc
  have hmod := Nat.mod_lt p hb
  rw [Nat.mul_comm] at hdm
  split
  · next h =>
    obtain ⟨h1, h2, h3⟩ := h
    have hps : p = size := by omega
    have hm : p % bpc = 0 := by
      have : ((p % bpc : Nat) : Int) = 0 := by rw [Int.natCast_emod]; exact h3
      omega
    have hq : 1 ≤ p / bpc := by
      rcases Nat.eq_zero_or_pos (p / bpc) with h0 | h0
      · rw [h0, hm] at hdm; omega
      · exact h0
    refine ⟨p / bpc - 1, bpc, ?_, ?_, ?_, ?_, ?_⟩
    · rw [← Int.natCast_ediv]
      generalize p / bpc = q at *
      simp only [Prod.mk.injEq, and_true]
      omega
    · rw [Nat.sub_mul, Nat.one_mul]
      have : bpc ≤ p / bpc * bpc := by
        calc bpc = 1 * bpc := (Nat.one_mul _).symm
          _ ≤ _ := Nat.mul_le_mul_right _ hq
      generalize p / bpc * bpc = q at *
      omega
    · intro hlt; omega
    · intro n _ hn
      have : p / bpc ≤ n := by
        rw [hps]
        exact Nat.div_le_of_le_mul (by rw [Nat.mul_comm]; exact hn)
      generalize p / bpc = q at *
      omega
    · intro h0; omega
  · next h =>
    refine ⟨p / bpc, p % bpc, ?_, hdm, fun _ => hmod, ?_, ?_⟩
    · rw [Int.natCast_ediv, Int.natCast_emod]
    · intro n hs hn
      apply (Nat.div_lt_iff_lt_mul hb).mpr
      rcases Nat.lt_or_ge p (n * bpc) with hlt | hge
      · exact hlt
      · exfalso
        apply h
        have hpe : p = n * bpc := by omega
        refine ⟨by omega, by omega, ?_⟩
        rw [← Int.natCast_emod, hpe, Nat.mul_mod_left]
        rfl
    · intro h0
      have : p = 0 := by omega
      rw [this, Nat.zero_div]

/-- Seeking to a position that is not negative. -/
theorem seek_at {α : Type} {v : Volume α} {e : Entry} {cs : List Nat} {content : List α} (h : Stored v e cs content)
    {f : FatFile} {p : Nat} (ha : At v e cs f p) (o : Int) (w : Whence) (t : Nat)
    (ht : f.target e o w = (t : Int)) :
    ∃ f', f.seek v e o w = .ok (((min t e.size : Nat) : Int), f') ∧ At v e cs f' (min t e.size) := by
  obtain ⟨j, q, hl, hsum, hin, hbound, hzero⟩ := locate_spec v.bpc e.size (min t e.size) h.bpc (Nat.min_le_right _ _)
  have hmin : min (t : Int) (e.size : Int) = ((min t e.size : Nat) : Int) := by omega
  unfold FatFile.seek
  simp only [ht, hmin, hl]
  by_cases hsz : e.size = 0
  · have hj := hzero hsz
    have hc := ha.empty hsz
    subst hj
    rw [hc]
    simp only [Int.natCast_zero, Int.lt_irrefl, if_false, gt_iff_lt]
    refine ⟨_, rfl, ?_⟩
    exact { le := Nat.min_le_right _ _, bpos := rfl, pos := Int.le_refl _, off := by simp only; omega,
            split := by simp only [Int.toNat_zero, Int.toNat_natCast]; exact hsum,
            inside := by intro hlt; simp only; have := hin hlt; omega, cluster := by intro hs; omega, empty := fun _ => rfl }
  · have hs : 0 < e.size := Nat.pos_of_ne_zero hsz
    have hch := h.chain hs
    have hj := hbound _ hs h.enough
    have hcl := ha.cluster hs
    have hp0 := ha.pos
    -- the cluster from which the search starts
    have hstart : ∃ k : Nat, (if (j : Int) < f.cindex then (0 : Int) else f.cindex) = (k : Int) ∧ k ≤ j ∧
        cs[k]? = some (if (j : Int) < f.cindex then e.first else f.cpos) := by
      split
      · exact ⟨0, rfl, Nat.zero_le _, chain_head hch⟩
      · exact ⟨f.cindex.toNat, by omega, by omega, hcl⟩
    obtain ⟨k, hk, hkj, hck⟩ := hstart
    rw [hk]
    generalize (if (j : Int) < f.cindex then e.first else f.cpos) = c0 at *
    obtain ⟨hklt, hcs⟩ := List.getElem?_eq_some_iff.mp hck
    have mk : ∀ c, cs[j]? = some c → At v e cs ⟨((min t e.size : Nat) : Int), c, (j : Int), (q : Int)⟩ (min t e.size) := by
      intro c hc
      exact { le := Nat.min_le_right _ _, bpos := rfl, pos := by simp only; omega, off := by simp only; omega,
              split := by simp only [Int.toNat_natCast]; exact hsum,
              inside := by intro hlt; simp only; have := hin hlt; omega,
              cluster := by intro _; simp only [Int.toNat_natCast]; exact hc, empty := by intro h0; omega }
    by_cases hgt : (j : Int) > (k : Int)
    · rw [if_pos hgt]
      have hn : ((j : Int) - (k : Int) + 1).toNat = (j - k) + 1 := by omega
      have hd := draw_chain (chain_drop hch k hklt) (j - k) c0 (by rw [List.length_drop]; omega)
      rw [hcs] at hd
      rw [hn, hd]
      refine ⟨_, rfl, mk _ ?_⟩
      rw [List.getElem_drop, List.getElem?_eq_getElem hj]
      congr 2
      omega
    · rw [if_neg hgt]
      refine ⟨_, rfl, mk _ ?_⟩
      have : j = k := by omega
      rw [this]; exact hck

theorem content_length {α : Type} {v : Volume α} {e : Entry} {cs : List Nat} {content : List α} (h : Stored v e cs content) :
    content.length = e.size := by
  rw [h.content, List.length_take, flatMap_length v.cluster v.bpc cs h.full]
  exact Nat.min_eq_left h.enough

/-- Reading at a position of the file. -/
theorem read_at {α : Type} {v : Volume α} {e : Entry} {cs : List Nat} {content : List α} (h : Stored v e cs content)
    {f : FatFile} {p : Nat} (ha : At v e cs f p) (n : Int) :
    ∃ f', f.read v e n = .ok ((if n < 0 then content.drop p else (content.drop p).take n.toNat), f') ∧
      At v e cs f' (p + (if n < 0 then content.drop p else (content.drop p).take n.toNat).length) := by
  have hlen := content_length h
  have hp := ha.le
  -- the number of bytes
  obtain ⟨need, hneed, hle, hdata⟩ : ∃ need : Nat, (if n + f.bpos > e.size ∨ n < 0 then (e.size : Int) - f.bpos else n) = (need : Int) ∧
      p + need ≤ e.size ∧ (if n < 0 then content.drop p else (content.drop p).take n.toNat) = (content.drop p).take need := by
    rw [ha.bpos]
    by_cases hn : n < 0
    · refine ⟨e.size - p, ?_, by omega, ?_⟩
      · rw [if_pos (Or.inr hn)]; omega
      · rw [if_pos hn, List.take_of_length_le (by rw [List.length_drop]; omega)]
    · by_cases hbig : n + p > e.size
      · refine ⟨e.size - p, ?_, by omega, ?_⟩
        · rw [if_pos (Or.inl hbig)]; omega
        · rw [if_neg hn, List.take_of_length_le (by rw [List.length_drop]; omega),
            List.take_of_length_le (by rw [List.length_drop]; omega)]
      · refine ⟨n.toNat, ?_, by omega, ?_⟩
        · rw [if_neg (by omega)]; omega
        · rw [if_neg hn]
  rw [hdata]
  have hlen2 : ((content.drop p).take need).length = need := by rw [List.length_take, List.length_drop]; omega
  rw [hlen2]
  unfold FatFile.read
  simp only [hneed]
  by_cases h0 : need = 0
  · subst h0
    simp only [Int.natCast_zero, if_true, List.take_zero, Nat.add_zero]
    exact ⟨f, rfl, ha⟩
  · rw [if_neg (by omega)]
    have hs : 0 < e.size := by omega
    have hch := h.chain hs
    obtain ⟨hjlt, hcs⟩ := List.getElem?_eq_some_iff.mp (ha.cluster hs)
    have hoff := ha.off
    have hin := ha.inside (by omega)
    have hdl : ∀ c ∈ cs.drop f.cindex.toNat, (v.cluster c).length = v.bpc := fun c hc => h.full c (List.mem_of_mem_drop hc)
    have hbound : f.coffpos.toNat + need ≤ (cs.drop f.cindex.toNat).length * v.bpc := by
      have h1 := h.enough
      have h2 := ha.split
      rw [List.length_drop, Nat.sub_mul]
      omega
    have hr := readLoop_chain v (chain_drop hch _ hjlt) h.bpc (need + 1) f.coffpos.toNat need 0 [] hdl (by omega) (by omega)
      (by omega) hbound
    rw [hcs] at hr
    simp only [Nat.zero_add, Int.natCast_zero, List.nil_append, Int.toNat_of_nonneg hoff] at hr
    simp only [Int.toNat_natCast]
    rw [hr]
    simp only
    have hbytes : (List.drop f.coffpos.toNat (List.flatMap v.cluster (List.drop f.cindex.toNat cs))).take need =
        (content.drop p).take need := by
      rw [← flatMap_drop v.cluster v.bpc cs _ h.full, List.drop_drop, ha.split, h.content, List.drop_take, List.take_take]
      congr 1
      omega
    rw [hbytes]
    obtain ⟨f', hseek, hat⟩ := seek_at h ha (need : Int) .cur (p + need) (by simp only [FatFile.target, ha.bpos]; omega)
    rw [hseek]
    simp only [hlen2]
    rw [Nat.min_eq_left hle] at hat
    exact ⟨f', by simp, hat⟩

/-- **C68**, provable part: as long as no position is negative, a file of a FAT volume behaves like a file in memory whose positions
are limited by its size. Missing: negative positions, which are accepted and put the file out of step. -/
theorem C68_file_partial {α : Type} {v : Volume α} {e : Entry} {cs : List Nat} {content : List α} (h : Stored v e cs content) :
    ∀ (ops : List FileOp) (f : FatFile) (p : Nat), At v e cs f p → (ClampIO.mk content p).accepts ops = true →
    f.run v e ops = (ClampIO.mk content p).run ops := by
  have hlen := content_length h
  intro ops
  induction ops with
  | nil => intro f p _ _; rfl
  | cons op ops ih =>
    intro f p ha hok
    rw [ClampIO.accepts, Bool.and_eq_true] at hok
    obtain ⟨hop, hrest⟩ := hok
    rw [FatFile.run, ClampIO.run]
    cases op with
    | read n =>
      obtain ⟨f', hr, hat⟩ := read_at h ha n
      simp only [FatFile.step, hr, ClampIO.step]
      rw [ih f' _ hat (by simpa only [ClampIO.step] using hrest)]
    | seek o w =>
      simp only [ClampIO.fine, decide_eq_true_eq] at hop
      obtain ⟨f', hr, hat⟩ := seek_at h ha o w ((ClampIO.mk content p).target o w).toNat (by
        rw [Int.toNat_of_nonneg hop]
        cases w <;> simp only [FatFile.target, ClampIO.target, ha.bpos, hlen] <;> omega)
      have hn : ¬ (ClampIO.mk content p).target o w < 0 := by omega
      simp only [ClampIO.step, if_neg hn] at hrest ⊢
      simp only [FatFile.step, hr]
      rw [hlen] at hrest ⊢
      rw [ih f' _ hat hrest]
      congr 2
      generalize (ClampIO.mk content p).target o w = t at *
      omega
    | tell =>
      obtain ⟨f', hr, hat⟩ := seek_at h ha 0 .cur p (by simp only [FatFile.target, ha.bpos]; omega)
      have := ha.le
      rw [Nat.min_eq_left this] at hr hat
      simp only [FatFile.step, hr, ClampIO.step]
      rw [ih f' _ hat (by simpa only [ClampIO.step] using hrest)]

/-- **C68** from opening the file. -/
theorem C68_open_partial {α : Type} {v : Volume α} {e : Entry} {cs : List Nat} {content : List α} (h : Stored v e cs content)
    (ops : List FileOp) (hok : (ClampIO.mk content 0).accepts ops = true) :
    (openFile e).run v e ops = (ClampIO.mk content 0).run ops := C68_file_partial h ops _ _ (at_open h) hok

/-- A volume with clusters of two bytes. -/
def sample : Volume Nat := ⟨.fat16, [0xFFF8, 0xFFFF, 4, 0xFFFF, 3], 2, fun c => [c, c + 10]⟩

def sampleEntry : Entry := ⟨2, 5⟩

theorem sample_stored : Stored sample sampleEntry [2, 4, 3] [2, 12, 4, 14, 3] where
  bpc := by decide
  chain := fun _ => .next (v := 4) rfl (by simp [IsData, bits, sample]) (.next (v := 3) rfl (by simp [IsData, bits, sample])
    (.last (v := 0xFFFF) rfl (Or.inl (by simp [bits, sample]))))
  full := by decide
  enough := by decide
  content := by decide

example : (openFile sampleEntry).run sample sampleEntry [.read 3, .seek (-1) .end_, .tell, .read (-1), .seek 1 .set, .read 2] =
    [.bytes [2, 12, 4], .num 4, .num 4, .bytes [3], .num 1, .bytes [12, 4]] :=
  (C68_open_partial sample_stored _ (by decide)).trans (by decide)

/-- C68 is violated: a seek before the begin of the file is accepted, and afterwards the begin of the file is in its second
cluster. (Python's `zipfile` seeks like this in files that are too short for an archive.) -/
theorem C68_violated : ¬ C68_statement Nat := by
  intro h
  have := h sample sampleEntry _ _ [.seek (-1) .set, .seek 0 .set, .read 2] sample_stored
  revert this
  decide

end Verif.FatChain
