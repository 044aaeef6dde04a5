import Verif.Index.Xattrs
import Verif.Bits

/-!
# C21: resumable hash computation (core/ratarmountcore/mountsource/SQLiteIndexMountSource.py:118-209)

The extended attributes are those of `Verif.Index.Xattrs`. A crash happens between two calls of `setxattrs`, each
of which is one transaction. The query result is a snapshot (it is sorted by a column that is no prefix of an
index, so SQLite computes it before returning the first row). Progress output is not modelled.
-/

namespace Verif.Index

open Verif.Py

/-- A row of "files", as far as it matters here (SQLiteIndexMountSource.py:95-208). -/
structure HFile where
  oh : Int
  mode : Nat
  generated : Bool
  deriving DecidableEq

/-- The world: which algorithm names exist (`HASH_REGISTRY`, `hashlib.new`), which of them are computed at the end
(`sparse`), the digest of each file, and whether opening or reading a file raises (hashing.py:27-40, 79-128). -/
structure Hasher (V : Type) where
  supported : Str → Bool
  sparse : Str → Bool
  digest : HFile → Str → V
  fails : HFile → Bool

variable {V : Type}

/-- `COUNT(DISTINCT ...)`, `set(...)` (SQLiteIndexMountSource.py:95-140). -/
def distinct {A : Type} [DecidableEq A] : List A → List A
  | [] => []
  | a :: l => if a ∈ l then distinct l else a :: distinct l

/-- `self.hashes = sorted(set(hashes or []))` (SQLiteIndexMountSource.py:57). -/
def hashAlgs (opts : List Str) : List Str :=
  sortBy (fun a b => decide (a.map Char.toNat ≤ b.map Char.toNat)) (distinct opts)

/-- `f"user.hash.{h}"` (SQLiteIndexMountSource.py:95-208). -/
def hashKey (alg : Str) : Str := "user.hash.".toList ++ alg

/-- `compute_hashes` (hashing.py:79-128) as far as its result dictionary: the supported algorithms, sparse ones
last. `none` if it raises. -/
def computeHashes (h : Hasher V) (algs : List Str) (f : HFile) : Option (Dict Str V) :=
  if h.fails f then none
  else
    let known := algs.filter h.supported
    some (Dict.update [] ((known.filter (fun a => !h.sparse a) ++ known.filter h.sparse).map (fun a => (a, h.digest f a))))

/-- The xattrs appended for one file (SQLiteIndexMountSource.py:199-202), nothing if hashing it raises (SQLiteIndexMountSource.py:189-196). -/
def hashRows (h : Hasher V) (algs : List Str) (f : HFile) : List (Int × Str × V) :=
  ((computeHashes h algs f).getD []).map (fun nv => (f.oh, hashKey nv.1, nv.2))

/-- `(mode & 0xF000) == 0x8000 AND NOT isgenerated` (SQLiteIndexMountSource.py:150-152). -/
def HFile.eligible (f : HFile) : Bool := (f.mode &&& 0xF000 == 0x8000) && !f.generated

/-- The condition of the sub query (SQLiteIndexMountSource.py:144-155): fewer distinct hash keys than required. -/
def incomplete (x : XDB V) (algs : List Str) (f : HFile) : Bool :=
  f.eligible &&
  decide ((distinct ((x.view.filter (fun r => decide (r.1 = f.oh ∧ r.2.1 ∈ algs.map hashKey))).map (·.2.1))).length <
    (algs.map hashKey).length)

/-- The selected rows (SQLiteIndexMountSource.py:165-167), which are the files that are read. -/
def selected (x : XDB V) (algs : List Str) (files : List HFile) : List HFile :=
  sortBy (fun a b => decide (a.oh ≤ b.oh)) (files.filter (incomplete x algs))

/-- The loop (SQLiteIndexMountSource.py:176-209): the list of its calls of `setxattrs`. `acc` is the list `xattrs`. -/
def hashLoop (h : Hasher V) (algs : List Str) : List HFile → List (Int × Str × V) → List (List (Int × Str × V))
  | [], acc => if acc = [] then [] else [acc]
  | f :: fs, acc =>
    match computeHashes h algs f with
    | none => hashLoop h algs fs acc
    | some _ =>
      let acc := acc ++ hashRows h algs f
      if acc.length ≥ 1000 then acc :: hashLoop h algs fs [] else hashLoop h algs fs acc

/-- `_compute_and_store_hashes` (SQLiteIndexMountSource.py:118-209). -/
def hashCalls (h : Hasher V) (algs : List Str) (files : List HFile) (x : XDB V) : List (List (Int × Str × V)) :=
  if algs = [] then [] else hashLoop h algs (selected x algs files) []

/-- An uninterrupted run (SQLiteIndexMountSource.py:95-208). -/
def hashRun (h : Hasher V) (algs : List Str) (files : List HFile) (x : XDB V) : XDB V :=
  (hashCalls h algs files x).foldl XDB.setxattrs x

/-- A run that stops after `j` stored batches (SQLiteIndexMountSource.py:95-208). -/
def hashCrash (h : Hasher V) (algs : List Str) (files : List HFile) (x : XDB V) (j : Nat) : XDB V :=
  ((hashCalls h algs files x).take j).foldl XDB.setxattrs x

/-- The files read by a run (SQLiteIndexMountSource.py:95-208). -/
def hashReads (algs : List Str) (files : List HFile) (x : XDB V) : List HFile :=
  if algs = [] then [] else selected x algs files

/-! ## specification -/

/-- The attribute of the file with the given header offset. -/
def attr (x : XDB V) (oh : Int) (key : Str) : Option V := x.getXattr ⟨oh, ⟨0, 0, false, 0⟩⟩ key

/-- The header offset identifies the contents. -/
def SameContents (h : Hasher V) (files : List HFile) : Prop :=
  ∀ f ∈ files, ∀ g ∈ files, f.oh = g.oh → h.fails f = h.fails g ∧ ∀ a, h.digest f a = h.digest g a

/-! ## lemmas -/

theorem distinct_nodup {A : Type} [DecidableEq A] (l : List A) : (distinct l).Nodup ∧ ∀ a, a ∈ distinct l ↔ a ∈ l := by
  induction l with
  | nil => simp [distinct]
  | cons b l ih =>
    unfold distinct
    split
    · next h =>
      refine ⟨ih.1, fun a => ?_⟩
      rw [ih.2, List.mem_cons]
      exact ⟨.inr, fun h' => h'.elim (fun he => by rw [he]; exact h) id⟩
    · next h =>
      refine ⟨List.nodup_cons.mpr ⟨fun h' => h ((ih.2 b).mp h'), ih.1⟩, fun a => ?_⟩
      rw [List.mem_cons, List.mem_cons, ih.2]

theorem length_le_of_subset {A : Type} [DecidableEq A] (l : List A) : ∀ (m : List A), l.Nodup → (∀ a ∈ l, a ∈ m) →
    l.length ≤ m.length := by
  induction l with
  | nil => intros; simp
  | cons a l ih =>
    intro m hn hs
    rw [List.nodup_cons] at hn
    have hm : a ∈ m := hs a (by simp)
    have := ih (m.erase a) hn.2 (by
      intro b hb
      exact (List.mem_erase_of_ne (show b ≠ a from by rintro rfl; exact hn.1 hb)).mpr (hs b (List.mem_cons_of_mem _ hb)))
    rw [List.length_erase_of_mem hm] at this
    have : 0 < m.length := List.length_pos_of_mem hm
    simp only [List.length_cons]
    omega

theorem hashKey_inj {a b : Str} (h : hashKey a = hashKey b) : a = b := List.append_cancel_left h

theorem lastWritten_append_list (a b : List (Int × Str × V)) (oh : Int) (key : Str) :
    lastWritten (a ++ b) oh key = (lastWritten b oh key).or (lastWritten a oh key) := by
  unfold lastWritten
  rw [List.reverse_append, List.find?_append]
  cases List.find? (fun r => decide (r.1 = oh ∧ r.2.1 = key)) b.reverse <;> rfl

theorem lastWritten_other (l : List (Int × Str × V)) (oh : Int) (key : Str) (h : ∀ r ∈ l, r.1 ≠ oh) :
    lastWritten l oh key = none := by
  unfold lastWritten
  rw [Option.map_eq_none_iff, List.find?_eq_none]
  intro r hr
  simp [h r (List.mem_reverse.mp hr)]

theorem hashRows_oh (h : Hasher V) (algs : List Str) (f : HFile) : ∀ r ∈ hashRows h algs f, r.1 = f.oh := by
  intro r hr
  obtain ⟨nv, _, rfl⟩ := List.mem_map.mp hr
  rfl

theorem hashRows_same {h : Hasher V} {algs : List Str} {files : List HFile} (hs : SameContents h files) {f g : HFile}
    (hf : f ∈ files) (hg : g ∈ files) (he : f.oh = g.oh) : hashRows h algs f = hashRows h algs g := by
  obtain ⟨h1, h2⟩ := hs f hf g hg he
  have : h.digest f = h.digest g := funext h2
  unfold hashRows computeHashes
  rw [he, h1, this]

/-- What a list of hashed files leaves for one header offset. -/
theorem lastWritten_files {h : Hasher V} {algs : List Str} {files : List HFile} (hs : SameContents h files)
    (oh : Int) (key : Str) (l : List HFile) : (∀ f ∈ l, f ∈ files) →
    (∀ f ∈ l, f.oh = oh → lastWritten (l.flatMap (hashRows h algs)) oh key = lastWritten (hashRows h algs f) oh key) ∧
    ((∀ f ∈ l, f.oh ≠ oh) → lastWritten (l.flatMap (hashRows h algs)) oh key = none) := by
  induction l with
  | nil => intro _; exact ⟨by simp, fun _ => rfl⟩
  | cons g l ih =>
    intro hl
    obtain ⟨i1, i2⟩ := ih (fun f hf => hl f (List.mem_cons_of_mem _ hf))
    rw [List.flatMap_cons, lastWritten_append_list]
    constructor
    · intro f hf hoh
      by_cases hex : ∃ f' ∈ l, f'.oh = oh
      · obtain ⟨f', hf', he⟩ := hex
        rw [i1 f' hf' he, hashRows_same hs (hl f' (List.mem_cons_of_mem _ hf')) (hl f hf) (by rw [he, hoh])]
        by_cases hg : g.oh = oh
        · rw [hashRows_same hs (hl g (by simp)) (hl f hf) (by rw [hg, hoh])]
          cases lastWritten (hashRows h algs f) oh key <;> rfl
        · rw [lastWritten_other (hashRows h algs g) oh key (fun r hr => by rw [hashRows_oh h algs g r hr]; exact hg), Option.or_none]
      · have hnone : ∀ f' ∈ l, f'.oh ≠ oh := fun f' hf' he => hex ⟨f', hf', he⟩
        rw [i2 hnone, Option.none_or]
        rcases List.mem_cons.mp hf with rfl | hf
        · rfl
        · exact absurd hoh (hnone f hf)
    · intro hnone
      rw [i2 (fun f hf => hnone f (List.mem_cons_of_mem _ hf)), Option.none_or]
      exact lastWritten_other _ _ _ (fun r hr => by rw [hashRows_oh h algs g r hr]; exact hnone g (by simp))

theorem hashRows_none {h : Hasher V} {algs : List Str} {f : HFile} (hc : computeHashes h algs f = none) :
    hashRows h algs f = [] := by unfold hashRows; rw [hc]; rfl

/-- All calls together store the rows of all files. -/
theorem hashLoop_flatten (h : Hasher V) (algs : List Str) (fs : List HFile) : ∀ acc,
    (hashLoop h algs fs acc).flatten = acc ++ fs.flatMap (hashRows h algs) := by
  induction fs with
  | nil => intro acc; unfold hashLoop; split <;> simp [*]
  | cons f fs ih =>
    intro acc
    unfold hashLoop
    rw [List.flatMap_cons]
    cases hc : computeHashes h algs f with
    | none => simp only [ih, hashRows_none hc, List.nil_append]
    | some c =>
      simp only
      split
      · rw [List.flatten_cons, ih, List.nil_append, List.append_assoc]
      · rw [ih, List.append_assoc]

/-- Some calls store the rows of a first part of the files: the rows of one file are never separated. -/
theorem hashLoop_take (h : Hasher V) (algs : List Str) (fs : List HFile) : ∀ acc j,
    ((hashLoop h algs fs acc).take j).flatten = [] ∨
    ∃ n, ((hashLoop h algs fs acc).take j).flatten = acc ++ (fs.take n).flatMap (hashRows h algs) := by
  induction fs with
  | nil =>
    intro acc j
    unfold hashLoop
    split
    · simp
    · cases j with
      | zero => simp
      | succ j => right; exact ⟨0, by simp⟩
  | cons f fs ih =>
    intro acc j
    unfold hashLoop
    cases hc : computeHashes h algs f with
    | none =>
      rcases ih acc j with hj | ⟨n, hj⟩
      · exact .inl hj
      · exact .inr ⟨n + 1, by simpa [hashRows_none hc] using hj⟩
    | some c =>
      simp only
      split
      · cases j with
        | zero => simp
        | succ j =>
          right
          rw [List.take_succ_cons, List.flatten_cons]
          rcases ih [] j with hj | ⟨n, hj⟩
          · exact ⟨1, by simp [hj]⟩
          · exact ⟨n + 1, by simp [hj]⟩
      · rcases ih (acc ++ hashRows h algs f) j with hj | ⟨n, hj⟩
        · exact .inl hj
        · exact .inr ⟨n + 1, by simpa using hj⟩

theorem foldl_setxattrs_inv (calls : List (List (Int × Str × V))) : ∀ (x : XDB V) (hist), x.Inv hist →
    (calls.foldl XDB.setxattrs x).Inv (hist ++ calls.flatten) := by
  induction calls with
  | nil => intro x hist h; simpa using h
  | cons c cs ih =>
    intro x hist h
    have := ih _ _ (setxattrs_inv c x hist h)
    simpa [List.append_assoc] using this

theorem attr_eq {x : XDB V} {hist} (hinv : x.Inv hist) (oh : Int) (key : Str) : attr x oh key = lastWritten hist oh key := by
  unfold attr XDB.getXattr
  simp only [Bool.false_eq_true, if_false]
  cases hh : (x.view.filter (fun r => decide (r.1 = oh ∧ r.2.1 = key))).head? with
  | some r =>
    have hr := List.mem_filter.mp (List.mem_of_head? hh)
    have hv := (mem_view hinv r).mp hr.1
    have hp := of_decide_eq_true hr.2
    rw [hp.1, hp.2] at hv
    rw [hv]; rfl
  | none =>
    cases hl : lastWritten hist oh key with
    | none => rfl
    | some w =>
      have : (oh, key, w) ∈ x.view.filter (fun r => decide (r.1 = oh ∧ r.2.1 = key)) :=
        List.mem_filter.mpr ⟨(mem_view hinv _).mpr hl, by simp⟩
      rw [List.head?_eq_none_iff.mp hh] at this
      cases this

theorem mem_stored {x : XDB V} {hist} (hinv : x.Inv hist) (oh : Int) (algs : List Str) (k : Str) :
    k ∈ (x.view.filter (fun r => decide (r.1 = oh ∧ r.2.1 ∈ algs.map hashKey))).map (·.2.1) ↔
    k ∈ algs.map hashKey ∧ (attr x oh k).isSome = true := by
  rw [attr_eq hinv]
  simp only [List.mem_map (f := fun (r : Int × Str × V) => r.2.1), List.mem_filter, decide_eq_true_eq, mem_view hinv]
  constructor
  · rintro ⟨r, ⟨h1, h2, h3⟩, rfl⟩
    rw [← h2, h1]
    exact ⟨h3, rfl⟩
  · rintro ⟨h1, h2⟩
    obtain ⟨v, hv⟩ := Option.isSome_iff_exists.mp h2
    exact ⟨(oh, k, v), ⟨hv, rfl, h1⟩, rfl⟩

/-- Whether a file is selected depends only on its own attributes. -/
theorem incomplete_congr {x y : XDB V} {hx hy} (ix : x.Inv hx) (iy : y.Inv hy) (algs : List Str) (f : HFile)
    (h : ∀ key, attr x f.oh key = attr y f.oh key) : incomplete x algs f = incomplete y algs f := by
  unfold incomplete
  congr 2
  refine congrArg (· < _) ?_
  have e : ∀ k, k ∈ distinct ((x.view.filter (fun r => decide (r.1 = f.oh ∧ r.2.1 ∈ algs.map hashKey))).map (·.2.1)) ↔
      k ∈ distinct ((y.view.filter (fun r => decide (r.1 = f.oh ∧ r.2.1 ∈ algs.map hashKey))).map (·.2.1)) := by
    intro k
    rw [(distinct_nodup _).2, (distinct_nodup _).2, mem_stored ix, mem_stored iy, h]
  exact Nat.le_antisymm (length_le_of_subset _ _ (distinct_nodup _).1 (fun a ha => (e a).mp ha))
    (length_le_of_subset _ _ (distinct_nodup _).1 (fun a ha => (e a).mpr ha))

theorem mem_selected (x : XDB V) (algs : List Str) (files : List HFile) (f : HFile) :
    f ∈ selected x algs files ↔ f ∈ files ∧ incomplete x algs f = true := by
  unfold selected
  rw [mem_sortBy, List.mem_filter]

/-- What a run, finished or not, does to the attributes of one header offset. -/
theorem crash_effect {h : Hasher V} {algs : List Str} {files : List HFile} (hs : SameContents h files)
    {x : XDB V} {hist} (ix : x.Inv hist) (j : Nat) (oh : Int) :
    (∀ key, attr (hashCrash h algs files x j) oh key = attr x oh key) ∨
    ∃ f ∈ files, f.oh = oh ∧ incomplete x algs f = true ∧
      ∀ key, attr (hashCrash h algs files x j) oh key = (lastWritten (hashRows h algs f) oh key).or (attr x oh key) := by
  have hinv := foldl_setxattrs_inv ((hashCalls h algs files x).take j) x hist ix
  have he : ∀ key, attr (hashCrash h algs files x j) oh key =
      (lastWritten ((hashCalls h algs files x).take j).flatten oh key).or (attr x oh key) := by
    intro key
    rw [hashCrash, attr_eq hinv, attr_eq ix, lastWritten_append_list]
  unfold hashCalls at he
  by_cases ha : algs = []
  · left; intro key; rw [he]; simp [ha, lastWritten]
  · rw [if_neg ha] at he
    rcases hashLoop_take h algs (selected x algs files) [] j with hj | ⟨n, hj⟩
    · left; intro key; rw [he, hj]; simp [lastWritten]
    · rw [List.nil_append] at hj
      have hmem : ∀ f ∈ (selected x algs files).take n, f ∈ files ∧ incomplete x algs f = true :=
        fun f hf => (mem_selected x algs files f).mp (List.mem_of_mem_take hf)
      by_cases hex : ∃ f ∈ (selected x algs files).take n, f.oh = oh
      · obtain ⟨f, hf, hoh⟩ := hex
        refine .inr ⟨f, (hmem f hf).1, hoh, (hmem f hf).2, fun key => ?_⟩
        rw [he, hj, (lastWritten_files hs oh key _ (fun f hf => (hmem f hf).1)).1 f hf hoh]
      · left
        intro key
        rw [he, hj, (lastWritten_files hs oh key _ (fun f hf => (hmem f hf).1)).2 (fun f hf hoh => hex ⟨f, hf, hoh⟩),
          Option.none_or]

theorem run_effect {h : Hasher V} {algs : List Str} (ha : algs ≠ []) {files : List HFile} (hs : SameContents h files)
    {x : XDB V} {hist} (ix : x.Inv hist) (oh : Int) (key : Str) :
    (∀ f ∈ files, f.oh = oh → incomplete x algs f = true →
      attr (hashRun h algs files x) oh key = (lastWritten (hashRows h algs f) oh key).or (attr x oh key)) ∧
    ((∀ f ∈ files, f.oh = oh → incomplete x algs f = false) →
      attr (hashRun h algs files x) oh key = attr x oh key) := by
  have hinv := foldl_setxattrs_inv (hashCalls h algs files x) x hist ix
  have he : attr (hashRun h algs files x) oh key =
      (lastWritten ((selected x algs files).flatMap (hashRows h algs)) oh key).or (attr x oh key) := by
    rw [hashRun, attr_eq hinv, attr_eq ix, lastWritten_append_list, hashCalls, if_neg ha, hashLoop_flatten, List.nil_append]
  obtain ⟨h1, h2⟩ := lastWritten_files hs (algs := algs) oh key (selected x algs files)
    (fun f hf => ((mem_selected x algs files f).mp hf).1)
  constructor
  · intro f hf hoh hi
    rw [he, h1 f ((mem_selected x algs files f).mpr ⟨hf, hi⟩) hoh]
  · intro hall
    rw [he, h2, Option.none_or]
    intro f hf hoh
    have hm := (mem_selected x algs files f).mp hf
    exact absurd (hall f hm.1 hoh) (by rw [hm.2]; simp)

theorem run_empty (h : Hasher V) (files : List HFile) (x : XDB V) : hashRun h [] files x = x := rfl

/-! ## C21 -/

/-- **C21**, interruptions: with the attributes already stored by any earlier calls, runs that stop after
arbitrarily many stored batches and then an uninterrupted run leave exactly the attributes of one uninterrupted
run. For every list of algorithm names, whether supported or not. -/
theorem C21_resume (h : Hasher V) (algs : List Str) (files : List HFile) (hs : SameContents h files)
    (calls : List (List (Int × Str × V))) (crashes : List Nat) (oh : Int) (key : Str) :
    attr (hashRun h algs files (crashes.foldl (hashCrash h algs files) (writeAll calls))) oh key =
    attr (hashRun h algs files (writeAll calls)) oh key := by
  by_cases ha : algs = []
  · subst ha
    have hc : ∀ (crashes : List Nat) (x : XDB V), crashes.foldl (hashCrash h [] files) x = x := by
      intro crashes
      induction crashes with
      | nil => intro x; rfl
      | cons j js ih => intro x; rw [List.foldl_cons, ih]; simp [hashCrash, hashCalls]
    rw [hc]
  · -- one crashed run does not change the outcome of the next finished one
    have step : ∀ (x : XDB V) (hist), x.Inv hist → ∀ j, ∃ hist', (hashCrash h algs files x j).Inv hist' ∧
        ∀ oh key, attr (hashRun h algs files (hashCrash h algs files x j)) oh key = attr (hashRun h algs files x) oh key := by
      intro x hist ix j
      refine ⟨_, foldl_setxattrs_inv _ x hist ix, ?_⟩
      have iy : (hashCrash h algs files x j).Inv _ := foldl_setxattrs_inv ((hashCalls h algs files x).take j) x hist ix
      intro oh key
      obtain ⟨rx1, rx2⟩ := run_effect (h := h) ha hs ix oh key
      obtain ⟨ry1, ry2⟩ := run_effect (h := h) ha hs iy oh key
      rcases crash_effect hs ix j oh (algs := algs) with hsame | ⟨f, hf, hoh, hi, heff⟩
      · have hinc : ∀ g ∈ files, g.oh = oh → incomplete (hashCrash h algs files x j) algs g = incomplete x algs g := by
          intro g _ hg
          exact incomplete_congr iy ix algs g (by rw [hg]; exact hsame)
        by_cases hex : ∃ g ∈ files, g.oh = oh ∧ incomplete x algs g = true
        · obtain ⟨g, hg, hgo, hgi⟩ := hex
          rw [rx1 g hg hgo hgi, ry1 g hg hgo (by rw [hinc g hg hgo, hgi]), hsame]
        · have hall : ∀ g ∈ files, g.oh = oh → incomplete x algs g = false := by
            intro g hg hgo
            cases hgi : incomplete x algs g with
            | false => rfl
            | true => exact absurd ⟨g, hg, hgo, hgi⟩ hex
          rw [rx2 hall, ry2 (fun g hg hgo => by rw [hinc g hg hgo, hall g hg hgo]), hsame]
      · rw [rx1 f hf hoh hi]
        by_cases hex : ∃ g ∈ files, g.oh = oh ∧ incomplete (hashCrash h algs files x j) algs g = true
        · obtain ⟨g, hg, hgo, hgi⟩ := hex
          rw [ry1 g hg hgo hgi, heff, hashRows_same hs hg hf (by rw [hgo, hoh])]
          cases lastWritten (hashRows h algs f) oh key <;> rfl
        · rw [ry2, heff]
          intro g hg hgo
          cases hgi : incomplete (hashCrash h algs files x j) algs g with
          | false => rfl
          | true => exact absurd ⟨g, hg, hgo, hgi⟩ hex
    have main : ∀ (crashes : List Nat) (x : XDB V) (hist), x.Inv hist → ∀ oh key,
        attr (hashRun h algs files (crashes.foldl (hashCrash h algs files) x)) oh key = attr (hashRun h algs files x) oh key := by
      intro crashes
      induction crashes with
      | nil => intros; rfl
      | cons j js ih =>
        intro x hist ix oh key
        obtain ⟨hist', iy, he⟩ := step x hist ix j
        rw [List.foldl_cons, ih _ _ iy, he]
    exact main crashes _ _ (writeAll_inv calls) oh key

theorem attr_hashRows (h : Hasher V) (algs : List Str) (f : HFile) (hf : h.fails f = false) (a : Str) (haa : a ∈ algs)
    (hsup : h.supported a = true) : lastWritten (hashRows h algs f) f.oh (hashKey a) = some (h.digest f a) := by
  have hmem : ∀ nv ∈ (computeHashes h algs f).getD [], nv.2 = h.digest f nv.1 := by
    intro nv hnv
    unfold computeHashes at hnv
    rw [hf] at hnv
    simp only [Bool.false_eq_true, if_false, Option.getD_some] at hnv
    have key : ∀ (l : List Str) (d : Dict Str V), (∀ p ∈ d, p.2 = h.digest f p.1) →
        ∀ p ∈ Dict.update d (l.map (fun a => (a, h.digest f a))), p.2 = h.digest f p.1 := by
      intro l
      induction l with
      | nil => intro d hd p hp; exact hd p hp
      | cons b l ih =>
        intro d hd p hp
        refine ih (d.set b (h.digest f b)) ?_ p hp
        intro q hq
        have : ∀ (d : Dict Str V), (∀ p ∈ d, p.2 = h.digest f p.1) → ∀ q ∈ d.set b (h.digest f b), q.2 = h.digest f q.1 := by
          intro d
          induction d with
          | nil => intro _ q hq; simp only [Dict.set, List.mem_singleton] at hq; subst hq; rfl
          | cons p d ihd =>
            intro hd q hq
            unfold Dict.set at hq
            split at hq
            · next hpb =>
              rcases List.mem_cons.mp hq with rfl | hq
              · show h.digest f b = h.digest f p.1
                rw [hpb]
              · exact hd q (List.mem_cons_of_mem _ hq)
            · rcases List.mem_cons.mp hq with rfl | hq
              · exact hd _ (by simp)
              · exact ihd (fun p hp => hd p (List.mem_cons_of_mem _ hp)) q hq
        exact this d hd q hq
    exact key _ [] (by intro p hp; cases hp) nv hnv
  have hin : a ∈ Dict.keys ((computeHashes h algs f).getD []) := by
    unfold computeHashes
    rw [hf]
    simp only [Bool.false_eq_true, if_false, Option.getD_some]
    rw [Dict.mem_keys_update]
    left
    unfold Dict.keys
    rw [List.map_map, List.mem_map]
    refine ⟨a, ?_, rfl⟩
    cases hsp : h.sparse a <;> simp [haa, hsup, hsp]
  obtain ⟨nv, hnv, rfl⟩ := List.mem_map.mp hin
  have hr : (f.oh, hashKey nv.1, nv.2) ∈ hashRows h algs f := List.mem_map.mpr ⟨nv, hnv, rfl⟩
  unfold lastWritten
  cases hfind : (hashRows h algs f).reverse.find? (fun r => decide (r.1 = f.oh ∧ r.2.1 = hashKey nv.1)) with
  | none =>
    rw [List.find?_eq_none] at hfind
    exact absurd (by simp) (hfind _ (List.mem_reverse.mpr hr))
  | some r =>
    have hp := List.find?_some hfind
    rw [decide_eq_true_eq] at hp
    obtain ⟨nv', hnv', rfl⟩ := List.mem_map.mp (List.mem_reverse.mp (List.mem_of_find?_eq_some hfind))
    have := hashKey_inj hp.2
    rw [Option.map_some, hmem nv' hnv', this]

/-- **C21**, results: after a finished run every regular file of the archive whose contents can be read and some of
whose hashes were missing has the right hash for every supported algorithm. -/
theorem C21_complete (h : Hasher V) (algs : List Str) (files : List HFile) (hs : SameContents h files)
    (calls : List (List (Int × Str × V))) (f : HFile) (hf : f ∈ files) (he : f.eligible = true) (hr : h.fails f = false)
    (hm : ∃ a ∈ algs, attr (writeAll calls) f.oh (hashKey a) = none) (a : Str) (haa : a ∈ algs)
    (hsup : h.supported a = true) :
    attr (hashRun h algs files (writeAll calls)) f.oh (hashKey a) = some (h.digest f a) := by
  have ix := writeAll_inv calls
  have hne : algs ≠ [] := List.ne_nil_of_mem haa
  have hinc : incomplete (writeAll calls) algs f = true := by
    unfold incomplete
    rw [he, Bool.true_and, decide_eq_true_eq]
    obtain ⟨b, hb, hbn⟩ := hm
    have hsub : ∀ k ∈ distinct (((writeAll calls).view.filter
        (fun r => decide (r.1 = f.oh ∧ r.2.1 ∈ algs.map hashKey))).map (·.2.1)), k ∈ (algs.map hashKey).erase (hashKey b) := by
      intro k hk
      rw [(distinct_nodup _).2, mem_stored ix] at hk
      refine (List.mem_erase_of_ne ?_).mpr hk.1
      rintro rfl
      rw [hbn] at hk
      cases hk.2
    have := length_le_of_subset _ _ (distinct_nodup _).1 hsub
    have hbm : hashKey b ∈ algs.map hashKey := List.mem_map.mpr ⟨b, hb, rfl⟩
    rw [List.length_erase_of_mem hbm] at this
    have : 0 < (algs.map hashKey).length := List.length_pos_of_mem hbm
    omega
  rw [((run_effect hne hs ix f.oh (hashKey a)).1 f hf rfl hinc), attr_hashRows h algs f hr a haa hsup]
  rfl

/-- The part of C21 about reading: a file that has the hashes of all requested algorithms that exist is not read
again. `opts` are the names as given by the user. -/
def C21_reads_statement : Prop :=
  ∀ (h : Hasher Nat) (opts : List Str) (files : List HFile) (calls : List (List (Int × Str × Nat))) (f : HFile),
    f ∈ hashReads (hashAlgs opts) files (writeAll calls) →
    ∃ a ∈ opts, h.supported a = true ∧ attr (writeAll calls) f.oh (hashKey a) = none

/-- **C21 is violated by the code** when one of the requested algorithms does not exist (a misspelled name, or an
algorithm this Python build does not have): its attribute is required but never stored, so the whole archive is
read again at every mount. -/
theorem C21_violated : ¬ C21_reads_statement := by
  intro h
  obtain ⟨a, ha, hs, hn⟩ := h ⟨fun a => decide (a ≠ "foo".toList), fun _ => false, fun _ _ => 1, fun _ => false⟩
    ["md5".toList, "foo".toList] [⟨0, 0o100644, false⟩] [[(0, hashKey "md5".toList, 1)]] ⟨0, 0o100644, false⟩
    (by decide +kernel)
  rcases List.mem_cons.mp ha with rfl | ha
  · exact absurd hn (by decide +kernel)
  · rcases List.mem_cons.mp ha with rfl | ha
    · exact absurd hs (by decide)
    · cases ha

theorem hashAlgs_nodup (opts : List Str) : (hashAlgs opts).Nodup :=
  (sortBy_perm _ _).nodup_iff.mpr (distinct_nodup opts).1

theorem mem_hashAlgs (opts : List Str) (a : Str) : a ∈ hashAlgs opts ↔ a ∈ opts := by
  unfold hashAlgs
  rw [mem_sortBy, (distinct_nodup opts).2]

/-- **C21**, reading: exactly the regular files of the archive that lack the hash of a requested algorithm are read,
so a file that has all of them is never read again. Missing from the full claim: requested algorithms that do not
exist do not cause reads. -/
theorem C21_reads_partial (opts : List Str) (files : List HFile)
    (calls : List (List (Int × Str × V))) (f : HFile) :
    f ∈ hashReads (hashAlgs opts) files (writeAll calls) ↔
    f ∈ files ∧ f.eligible = true ∧ ∃ a ∈ opts, attr (writeAll calls) f.oh (hashKey a) = none := by
  simp only [← mem_hashAlgs opts]
  have hn := hashAlgs_nodup opts
  generalize hashAlgs opts = algs at hn
  have ix := writeAll_inv calls
  unfold hashReads
  by_cases ha : algs = []
  · simp [ha]
  rw [if_neg ha, mem_selected]
  unfold incomplete
  rw [Bool.and_eq_true, decide_eq_true_eq]
  have hnk : (algs.map hashKey).Nodup := List.pairwise_map.mpr (hn.imp (fun hne he => hne (hashKey_inj he)))
  constructor
  · rintro ⟨h1, h2, h3⟩
    refine ⟨h1, h2, Classical.byContradiction fun hno => ?_⟩
    have hall : ∀ k ∈ algs.map hashKey, k ∈ distinct (((writeAll calls).view.filter
        (fun r => decide (r.1 = f.oh ∧ r.2.1 ∈ algs.map hashKey))).map (·.2.1)) := by
      intro k hk
      rw [(distinct_nodup _).2, mem_stored ix]
      refine ⟨hk, ?_⟩
      obtain ⟨a, haa, rfl⟩ := List.mem_map.mp hk
      cases hv : attr (writeAll calls) f.oh (hashKey a) with
      | some v => rfl
      | none => exact absurd ⟨a, haa, hv⟩ hno
    have := length_le_of_subset _ _ hnk hall
    omega
  · rintro ⟨h1, h2, b, hb, hbn⟩
    refine ⟨h1, h2, ?_⟩
    have hsub : ∀ k ∈ distinct (((writeAll calls).view.filter
        (fun r => decide (r.1 = f.oh ∧ r.2.1 ∈ algs.map hashKey))).map (·.2.1)), k ∈ (algs.map hashKey).erase (hashKey b) := by
      intro k hk
      rw [(distinct_nodup _).2, mem_stored ix] at hk
      refine (List.mem_erase_of_ne ?_).mpr hk.1
      rintro rfl
      rw [hbn] at hk
      cases hk.2
    have := length_le_of_subset _ _ (distinct_nodup _).1 hsub
    have hbm : hashKey b ∈ algs.map hashKey := List.mem_map.mpr ⟨b, hb, rfl⟩
    rw [List.length_erase_of_mem hbm] at this
    have : 0 < (algs.map hashKey).length := List.length_pos_of_mem hbm
    omega

/-- **C21**, which files: only regular files that are stored in the archive are read. -/
theorem C21_regular (algs : List Str) (files : List HFile) (x : XDB V) (f : HFile) (h : f ∈ hashReads algs files x) :
    f ∈ files ∧ typeBits f.mode = 8 ∧ f.generated = false := by
  unfold hashReads at h
  split at h
  · cases h
  · rw [mem_selected] at h
    have hi := h.2
    unfold incomplete at hi
    rw [Bool.and_eq_true] at hi
    have he : f.eligible = true := hi.1
    unfold HFile.eligible at he
    rw [Bool.and_eq_true, beq_iff_eq, and_fmt, Bool.not_eq_true'] at he
    exact ⟨h.1, by omega, he.2⟩

/-- A small world for the examples: every name but `foo` is supported, the second file cannot be read. -/
def demoHasher : Hasher Nat where
  supported a := decide (a ≠ "foo".toList)
  sparse a := decide (a = "smplayer".toList)
  digest f a := a.length + f.oh.toNat
  fails f := decide (f.oh = 512)

/-- The hypotheses are met: three files, one unreadable, attributes of one stored before. -/
example : SameContents demoHasher [⟨0, 0o100644, false⟩, ⟨512, 0o100644, false⟩, ⟨1024, 0o100600, false⟩] ∧
    hashReads ["md5".toList, "crc32".toList] [⟨0, 0o100644, false⟩, ⟨512, 0o100644, false⟩, ⟨1024, 0o100600, false⟩]
      (writeAll [[(0, hashKey "md5".toList, 3), (1024, hashKey "md5".toList, 1027), (1024, hashKey "crc32".toList, 1029)]]) =
      [⟨0, 0o100644, false⟩, ⟨512, 0o100644, false⟩] ∧
    attr (hashRun demoHasher ["md5".toList, "crc32".toList]
      [⟨0, 0o100644, false⟩, ⟨512, 0o100644, false⟩, ⟨1024, 0o100600, false⟩]
      (writeAll [[(0, hashKey "md5".toList, 3)]])) 1024 (hashKey "crc32".toList) = some 1029 := by
  refine ⟨?_, by decide +kernel, by decide +kernel⟩
  intro f hf g hg he
  simp only [List.mem_cons, List.not_mem_nil, or_false] at hf hg
  rcases hf with rfl | rfl | rfl <;> rcases hg with rfl | rfl | rfl <;> first | exact ⟨rfl, fun _ => rfl⟩ | exact absurd he (by decide)

end Verif.Index
