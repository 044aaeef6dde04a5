import Verif.Py
import Verif.Tar.Index

/-!
# C158: how deep archives are mounted (core/ratarmountcore/utils.py:331-338, formats/tar.py:585-645, 836-1014, ratarmount/cli.py:230-333)

The options are `--recursive` and `--recursion-depth`. What is shown of a TAR archive, which may be compressed, is composed from the depth
that follows from them and the indexing of `Verif.Tar.Index`. The backends that are tried after this one has failed are not modelled.
-/

namespace Verif.Depth

open Verif.Py Verif.Tar

/-- `sys.maxsize` (used at utils.py:338). -/
def maxsize : Nat := 2 ^ 63 - 1

/-- `determine_recursion_depth` (utils.py:331-338). -/
def determineDepth (recursive : Bool) : Option Int → Int
  | some d => d
  | none => if recursive then maxsize else 0

/-- `self.maxRecursionDepth` (tar.py:588, 638-642): without options, the compression is removed and the TAR read. -/
def maxDepth (compressed recursive : Bool) (depth : Option Int) : Int :=
  if compressed && !recursive && depth.isNone then 1 else determineDepth recursive depth

/-- The recursion depth of the outermost TAR: `self._recursionDepth + 1` (tar.py:585, 638-639, 842). -/
def firstDepth (compressed : Bool) : Nat := if compressed then 1 else 0

/-- The number of nested TARs that are read: those with a depth up to the maximum (tar.py:398-399). -/
def levels (compressed recursive : Bool) (depth : Option Int) : Nat :=
  (maxDepth compressed recursive depth + 1 - firstDepth compressed).toNat

/-- What is shown of an archive. -/
inductive Shown where
  | rows (rs : List IRow)
  | single
  | failed (e : PyErr)

/-- The end of `_create_index_recursively` (tar.py:941-1014): an archive in which no file was found. -/
def finish (compressed : Bool) : List IRow → Shown
  | [] => if compressed then .single else .failed .compression
  | r :: rs => .rows (r :: rs)

/-- `_create_index` (tar.py:836-846, 849-1014) with the options. `archive` has been decompressed. -/
def openTar (c : Codec) (o : Opts) (compressed recursive : Bool) (depth : Option Int) (archive : Bytes) : Shown :=
  finish compressed (createIndex c o archive (levels compressed recursive depth) (firstDepth compressed) [] 0 archive)

/-- Whether archives in what is mounted are mounted, too (FuseMount.py:249-250, 522-523, actions.py:261). -/
def layered (recursive : Bool) (depth : Option Int) : Bool := decide (0 < determineDepth recursive depth)

/-! ## specification -/

/-- The depth that is documented (cli.py:230-232, 324-333): a negative value is infinite, `--recursive` is the same as -1, a value of 0 is
the same as no option, and `--recursion-depth` takes precedence. -/
def wanted (recursive : Bool) : Option Int → Option Nat
  | none => if recursive then none else some 0
  | some d => if d < 0 then none else some d.toNat

/-- Whether archives that are nested `k` times are wanted. Infinite means as many as there can be. -/
def Within (recursive : Bool) (depth : Option Int) (k : Nat) : Prop :=
  match wanted recursive depth with
  | none => k < maxsize
  | some d => k ≤ d

/-- What is shown has a file with these contents at a path. -/
def HasFile (archive : Bytes) (p : Str) (h : Hdr) (d : Bytes) : Shown → Prop
  | .rows rs => ∃ r ∈ rs, r.path ++ '/' :: r.name = p ∧ r.mode = fullMode h.type h.mode ∧ readAt archive r.offset r.size = d
  | .single => False
  | .failed _ => False

/-- **C158**: members of TARs that are nested up to the documented depth are shown, and archives in what is mounted are mounted if this
depth is not 0. -/
def C158_statement : Prop :=
  ∀ (c : Codec) (o : Opts) (compressed recursive : Bool) (depth : Option Int),
    (∀ (archive : Bytes) (k : Nat) (p : Str) (h : Hdr) (d : Bytes), Nested c o (k + 1) [] archive p h d → Within recursive depth k →
      HasFile archive p h d (openTar c o compressed recursive depth archive)) ∧
    (layered recursive depth = true ↔ wanted recursive depth ≠ some 0)

/-! ## proofs -/

theorem nested_mono {c : Codec} {o : Opts} {k : Nat} {pre : Str} {b : Bytes} {p : Str} {h : Hdr} {d : Bytes} (hn : Nested c o k pre b p h d) :
    ∀ k', k ≤ k' → Nested c o k' pre b p h d := by
  induction hn with
  | here k pre ms n m h hok hm =>
    intro k' hk
    cases k' with
    | zero => omega
    | succ k' => exact .here k' pre ms n m h hok hm
  | inside k pre ms n m h h' p d hok hm hk hreg htar _ ih =>
    intro k' hk'
    cases k' with
    | zero => omega
    | succ k' => exact .inside k' pre ms n m h h' p d hok hm (by omega) hreg htar (fun r h1 h2 => ih r h1 h2 k' (by omega))

/-- Members up to the number of levels that are read are shown. -/
theorem shown_levels (c : Codec) (o : Opts) (compressed recursive : Bool) (depth : Option Int) (archive : Bytes) (k : Nat) (p : Str) (h : Hdr)
    (d : Bytes) (hn : Nested c o (k + 1) [] archive p h d) (hk : k < levels compressed recursive depth) :
    HasFile archive p h d (openTar c o compressed recursive depth archive) := by
  obtain ⟨r, hr, h1, _, _, h4, _, h6, _⟩ :=
    nested_rows c o archive (nested_mono hn (levels compressed recursive depth) (by omega)) (firstDepth compressed) 0 (by simp [readAt]) (by omega)
  unfold openTar
  cases hl : createIndex c o archive (levels compressed recursive depth) (firstDepth compressed) [] 0 archive with
  | nil => rw [hl] at hr; cases hr
  | cons x xs => rw [hl] at hr; exact ⟨r, hr, h1, h4, h6⟩

theorem levels_plain (recursive : Bool) (depth : Option Int) (h : ∀ d, depth = some d → 0 ≤ d) (k : Nat) (hk : Within recursive depth k) :
    k < levels false recursive depth := by
  unfold Within wanted at hk
  unfold levels maxDepth determineDepth firstDepth
  cases depth with
  | none =>
    cases recursive with
    | false => simp only [Bool.false_eq_true, if_false] at hk; simp; omega
    | true =>
      simp only [if_true] at hk
      simp only [Bool.false_and, Bool.false_eq_true, if_false, if_true]
      omega
  | some d =>
    have := h d rfl
    have hd : ¬ d < 0 := by omega
    simp only [hd, if_false] at hk
    simp only [Bool.false_and, Bool.false_eq_true, if_false]
    omega

/-- **C158**, provable part: with a depth that is not negative, members of nested TARs in an archive without compression are shown up to the
documented depth, and archives in what is mounted are mounted exactly if it is not 0. Missing: negative depths and compressed archives. -/
theorem C158_plain_partial (c : Codec) (o : Opts) (recursive : Bool) (depth : Option Int) (hd : ∀ d, depth = some d → 0 ≤ d) :
    (∀ (archive : Bytes) (k : Nat) (p : Str) (h : Hdr) (d : Bytes), Nested c o (k + 1) [] archive p h d → Within recursive depth k →
      HasFile archive p h d (openTar c o false recursive depth archive)) ∧
    (layered recursive depth = true ↔ wanted recursive depth ≠ some 0) := by
  refine ⟨fun archive k p h d hn hk => shown_levels c o false recursive depth archive k p h d hn (levels_plain recursive depth hd k hk), ?_⟩
  unfold layered wanted determineDepth
  cases depth with
  | none => cases recursive <;> simp [maxsize]
  | some d =>
    have := hd d rfl
    have hn : ¬ d < 0 := by omega
    simp only [hn, if_false, decide_eq_true_eq, ne_eq, Option.some.injEq]
    omega

/-- **C158**, compressed archives: without `--recursion-depth`, the members are shown up to the documented depth. -/
theorem C158_compressed_partial (c : Codec) (o : Opts) (recursive : Bool) (archive : Bytes) (k : Nat) (p : Str) (h : Hdr) (d : Bytes)
    (hn : Nested c o (k + 1) [] archive p h d) (hk : Within recursive none k) :
    HasFile archive p h d (openTar c o true recursive none archive) := by
  refine shown_levels c o true recursive none archive k p h d hn ?_
  unfold Within wanted at hk
  unfold levels maxDepth determineDepth firstDepth
  cases recursive with
  | false => simp only [Bool.false_eq_true, if_false] at hk; simp; omega
  | true => simp only [if_true] at hk; simp; omega

/-- **C158**, compressed archives: with `--recursion-depth`, removing the compression counts as one level, thus the members are shown up to
one level less than documented. -/
theorem C158_compressed_less (c : Codec) (o : Opts) (recursive : Bool) (depth : Nat) (archive : Bytes) (k : Nat) (p : Str) (h : Hdr) (d : Bytes)
    (hn : Nested c o (k + 1) [] archive p h d) (hk : k < depth) :
    HasFile archive p h d (openTar c o true recursive (some depth) archive) := by
  refine shown_levels c o true recursive (some depth) archive k p h d hn ?_
  unfold levels maxDepth determineDepth firstDepth
  simp
  omega

/-- **C158**: with a negative depth, no TAR archive is shown at all, and nothing in it is mounted. -/
theorem C158_negative (c : Codec) (o : Opts) (compressed recursive : Bool) (depth : Int) (hd : depth < 0) (archive : Bytes) :
    openTar c o compressed recursive (some depth) archive = finish compressed [] ∧ layered recursive (some depth) = false := by
  have h : levels compressed recursive (some depth) = 0 := by
    unfold levels maxDepth determineDepth firstDepth
    cases compressed <;> simp <;> omega
  refine ⟨?_, ?_⟩
  · unfold openTar
    rw [h]
    rfl
  · unfold layered determineDepth
    simp
    omega

/-- **C158**: a compressed TAR with `--recursion-depth 0` is shown as one file. -/
theorem C158_zero (c : Codec) (o : Opts) (recursive : Bool) (archive : Bytes) : openTar c o true recursive (some 0) archive = .single := by
  have h : levels true recursive (some 0) = 0 := by cases recursive <;> rfl
  unfold openTar
  rw [h]
  rfl

/-! ### not deeper -/

theorem depth_rows (c : Codec) (o : Opts) (whole : Bytes) (k : Nat) : ∀ (depth stream : Nat) (pre : Str) (b : Bytes),
    ∀ r ∈ createIndex c o whole k depth pre stream b, depth ≤ r.depth ∧ (r.generated = false → r.depth < depth + k) := by
  induction k with
  | zero => intro depth stream pre b r hr; cases hr
  | succ k ih =>
    intro depth stream pre b r hr
    unfold createIndex at hr
    simp only at hr
    rcases List.mem_append.mp hr with hr | hr
    · obtain ⟨e, -, hr⟩ := List.mem_flatMap.mp hr
      have : r.depth = depth := by
        unfold processTarInfo at hr
        simp only at hr
        split at hr
        · rw [List.mem_singleton.mp hr]; rfl
        · split at hr
          · rcases List.mem_cons.mp hr with hr | hr
            · rw [hr]; rfl
            · rw [List.mem_singleton.mp hr]; rfl
          · rw [List.mem_singleton.mp hr]; rfl
      omega
    · obtain ⟨q, hq, hr⟩ := List.mem_flatMap.mp hr
      have hqd : q.depth = depth := by
        split at hq
        · cases hq
        · obtain ⟨e, -, rfl⟩ := List.mem_map.mp hq
          rfl
      rcases List.mem_append.mp hr with hr | hr
      · have := ih (depth + 1) _ _ _ r hr
        refine ⟨by omega, fun hg => ?_⟩
        have := this.2 hg
        omega
      · rcases List.mem_cons.mp hr with hr | hr
        · subst hr
          refine ⟨?_, fun hg => ?_⟩
          · show depth ≤ q.depth + 1
            omega
          · have : (folderRow o q).generated = true := rfl
            rw [this] at hg
            cases hg
        · rw [List.mem_singleton.mp hr]
          exact ⟨by show depth ≤ q.depth; omega, fun _ => by show q.depth < _; omega⟩

/-- **C158**, not deeper: the members that are shown are nested at most as often as asked for. -/
theorem C158_not_deeper (c : Codec) (o : Opts) (compressed recursive : Bool) (depth : Nat) (archive : Bytes) (rs : List IRow)
    (h : openTar c o compressed recursive (some depth) archive = .rows rs) : ∀ r ∈ rs, r.generated = false → r.depth ≤ depth := by
  intro r hr hg
  have hrows : rs = createIndex c o archive (levels compressed recursive (some depth)) (firstDepth compressed) [] 0 archive := by
    unfold openTar at h
    unfold finish at h
    split at h
    · split at h <;> cases h
    · next he => cases h; exact he.symm
  rw [hrows] at hr
  have := (depth_rows c o archive _ _ _ _ _ r hr).2 hg
  unfold levels maxDepth determineDepth firstDepth at this
  cases compressed <;> simp at this <;> omega

/-- **C158** is violated: with `--recursion-depth -1`, a TAR cannot be opened. -/
theorem C158_violated : ¬ C158_statement := by
  intro h
  have hn : Nested demoCodec demoOpts (0 + 1) [] (archiveOf [(demoEmpty 4, ⟨[Char.ofNat (97 + (4 : UInt8).toNat)], 0, '0', 0o644, []⟩)] 1024) _ _ _ :=
    .here 0 [] _ 1024 (demoEmpty 4) ⟨[Char.ofNat (97 + (4 : UInt8).toNat)], 0, '0', 0o644, []⟩ (fun p hp => by rw [List.mem_singleton.mp hp]; exact demoEmpty_ok 4 (by decide)) (by simp)
  have hw : Within false (some (-1)) 0 := (by decide : 0 < maxsize)
  have := (h demoCodec demoOpts false false (some (-1))).1 _ 0 _ _ _ hn hw
  rw [(C158_negative demoCodec demoOpts false false (-1) (by decide) _).1] at this
  exact this

/-- **C158** is violated for compressed archives: with `--recursion-depth 0`, the members of the TAR are not shown, although this is to be
the same as no option, with which they are. -/
theorem C158_compressed_violated : ¬ ∀ (c : Codec) (o : Opts) (archive : Bytes) (k : Nat) (p : Str) (h : Hdr) (d : Bytes),
    Nested c o (k + 1) [] archive p h d → Within false (some 0) k → HasFile archive p h d (openTar c o true false (some 0) archive) := by
  intro h
  have hn : Nested demoCodec demoOpts (0 + 1) [] (archiveOf [(demoEmpty 4, ⟨[Char.ofNat (97 + (4 : UInt8).toNat)], 0, '0', 0o644, []⟩)] 1024) _ _ _ :=
    .here 0 [] _ 1024 (demoEmpty 4) ⟨[Char.ofNat (97 + (4 : UInt8).toNat)], 0, '0', 0o644, []⟩ (fun p hp => by rw [List.mem_singleton.mp hp]; exact demoEmpty_ok 4 (by decide)) (by simp)
  have := h demoCodec demoOpts _ 0 _ _ _ hn (show 0 ≤ 0 by decide)
  rw [C158_zero] at this
  exact this

/-- The archive of the violation is shown without options, compressed or not. -/
example (compressed : Bool) : levels compressed false none = 1 := by cases compressed <;> decide

example : levels false false (some 2) = 3 ∧ levels true false (some 2) = 2 ∧ levels true true none = maxsize := by decide

example : Within false (some 2) 2 ∧ ¬ Within false (some 2) 3 ∧ Within true none 100 ∧ Within false (some (-5)) 100 :=
  ⟨show 2 ≤ 2 by decide, show ¬ 3 ≤ 2 by decide, show 100 < maxsize by decide, show 100 < maxsize by decide⟩

end Verif.Depth
