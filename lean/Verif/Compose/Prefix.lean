import Verif.Compose.Union
import Verif.PyLemmas

/-!
# C37: a mount source moved below a prefix (core/ratarmountcore/mountsource/compositing/removeprefix.py)
-/

namespace Verif.Compose

open Verif.Py Verif.Index

/-- `self.prefix` (removeprefix.py:18). -/
def prefixOf (path : Str) : Str := rstrip '/' (posixNormpath ('/' :: lstrip '/' path)) ++ ['/']

/-- The path with a slash at both ends (removeprefix.py:25-28). -/
def withSlashes (path : Str) : Str :=
  let p := if startsWith ['/'] path then path else '/' :: path
  if endsWith ['/'] p then p else p ++ ['/']

/-- `_parse_path` (removeprefix.py:22-33). -/
def parsePath {β : Type} (pre path : Str) (queryMountSource : Str → β) (queryDir : Str → β) (dflt : β) : β :=
  let p := withSlashes path
  if startsWith pre p then queryMountSource (slice p (pre.length - 1) (-1))
  else if startsWith p pre then queryDir ((split '/' (pre.drop p.length)).headD [])
  else dflt

/-- `lookup` (removeprefix.py:46-47): the version is not passed on. -/
def plookup (pre : Str) (s : Source) (path : Str) (_v : Int) : Option FileInfo :=
  parsePath pre path (fun p => s.lookup p 0) (fun _ => some (rootInfo [])) none

/-- `versions` (removeprefix.py:50-51). -/
def pversions (pre : Str) (s : Source) (path : Str) : Nat := parsePath pre path s.versions (fun _ => 1) 0

/-- `list` (removeprefix.py:38-39). -/
def plist (pre : Str) (s : Source) (path : Str) : Option (Listing FileInfo) :=
  parsePath pre path s.list (fun n => some (.dict [(n, rootInfo [])])) none

/-- `list_mode` (removeprefix.py:42-43). -/
def plistMode (pre : Str) (s : Source) (path : Str) : Option (Listing Nat) :=
  parsePath pre path s.listMode (fun n => some (.dict [(n, 0o40777)])) none

/-- The layer as a mount source (removeprefix.py:10-102). -/
def prefixed (id : Nat) (path : Str) (s : Source) : Source where
  id := id
  immutable := s.immutable
  lookup := plookup (prefixOf path) s
  versions := pversions (prefixOf path) s
  list := plist (prefixOf path) s
  listMode := plistMode (prefixOf path) s

/-! ## specification -/

/-- Every name followed by a slash, after a slash. -/
def slashed (cs : List Str) : Str := '/' :: cs.flatMap (fun n => n ++ ['/'])

/-- The source behaves as if there was a leading slash if there is none (MountSource.py:45-46), as far as the root is
concerned. -/
def RootAgrees (s : Source) : Prop :=
  (∀ v, s.lookup [] v = s.lookup ['/'] v) ∧ s.versions [] = s.versions ['/'] ∧ s.list [] = s.list ['/'] ∧
    s.listMode [] = s.listMode ['/']

/-- The full statement of C37: the source's tree below the prefix with the names `ps`, one folder for every proper ancestor,
and nothing else. -/
def C37_statement : Prop :=
  ∀ (id : Nat) (path : Str) (s : Source) (ps : List Str), RootAgrees s → (∀ n ∈ ps, IsName n) → path = canonical ps →
    ∀ (cs : List Str), (∀ n ∈ cs, IsName n) →
      (∀ rest, cs = ps ++ rest → ∀ v, (prefixed id path s).lookup (canonical cs) v = s.lookup (canonical rest) v) ∧
      (∀ n more, ps = cs ++ n :: more → ∀ v, ((prefixed id path s).lookup (canonical cs) v).map (fun i => isDir i.mode) = some true) ∧
      (¬ ps <+: cs → ¬ cs <+: ps → ∀ v, (prefixed id path s).lookup (canonical cs) v = none)

/-! ## lemmas -/

theorem slashed_append (a b : List Str) : slashed (a ++ b) = slashed a ++ b.flatMap (fun n => n ++ ['/']) := by
  simp [slashed]

theorem slashed_eq (cs : List Str) (h : cs ≠ []) : slashed cs = '/' :: join '/' cs ++ ['/'] := by
  induction cs with
  | nil => exact absurd rfl h
  | cons c cs ih =>
    cases cs with
    | nil => simp [slashed, join]
    | cons b bs =>
      have := ih (by simp)
      simp only [slashed, List.flatMap_cons, List.cons_append, List.cons.injEq, true_and] at this ⊢
      rw [this]
      show c ++ ['/'] ++ (join '/' (b :: bs) ++ ['/']) = c ++ '/' :: join '/' (b :: bs) ++ ['/']
      simp

theorem flatMap_prefix (a b : List Str) (ha : ∀ n ∈ a, '/' ∉ n) (hb : ∀ n ∈ b, '/' ∉ n) :
    (a.flatMap (fun n => n ++ ['/'])) <+: (b.flatMap (fun n => n ++ ['/'])) ↔ a <+: b := by
  induction a generalizing b with
  | nil => simp
  | cons x xs ih =>
    cases b with
    | nil =>
      simp only [List.flatMap_cons, List.flatMap_nil, List.prefix_nil]
      constructor
      · intro h; simp at h
      · intro h; cases h
    | cons y ys =>
      rw [List.flatMap_cons, List.flatMap_cons]
      constructor
      · rintro ⟨t, ht⟩
        have hx := ha x (by simp)
        have hy := hb y (by simp)
        have e : split '/' (x ++ ['/'] ++ xs.flatMap (fun n => n ++ ['/']) ++ t) = split '/' (y ++ ['/'] ++ ys.flatMap (fun n => n ++ ['/'])) := by
          rw [ht]
        rw [show x ++ ['/'] ++ xs.flatMap (fun n => n ++ ['/']) ++ t = x ++ '/' :: (xs.flatMap (fun n => n ++ ['/']) ++ t) from by simp,
          show y ++ ['/'] ++ ys.flatMap (fun n => n ++ ['/']) = y ++ '/' :: ys.flatMap (fun n => n ++ ['/']) from by simp,
          split_append_cons _ _ _ hx, split_append_cons _ _ _ hy] at e
        simp only [List.cons.injEq] at e
        obtain ⟨rfl, e⟩ := e
        have h1 : xs.flatMap (fun n => n ++ ['/']) <+: ys.flatMap (fun n => n ++ ['/']) := by
          refine ⟨t, ?_⟩
          have := congrArg (join '/') e
          rwa [join_split, join_split] at this
        exact List.cons_prefix_cons.mpr ⟨rfl, (ih ys (fun n hn => ha n (List.mem_cons_of_mem _ hn))
          (fun n hn => hb n (List.mem_cons_of_mem _ hn))).mp h1⟩
      · intro h
        obtain ⟨rfl, h'⟩ := List.cons_prefix_cons.mp h
        exact (List.prefix_append_right_inj _).mpr ((ih ys (fun n hn => ha n (List.mem_cons_of_mem _ hn))
          (fun n hn => hb n (List.mem_cons_of_mem _ hn))).mpr h')

theorem slashed_prefix (a b : List Str) (ha : ∀ n ∈ a, '/' ∉ n) (hb : ∀ n ∈ b, '/' ∉ n) :
    startsWith (slashed a) (slashed b) = true ↔ a <+: b := by
  unfold startsWith
  rw [List.isPrefixOf_iff_prefix, slashed, slashed, List.cons_prefix_cons, ← flatMap_prefix a b ha hb]
  simp

theorem endsWith_snoc (a : Str) : endsWith ['/'] (a ++ ['/']) = true := by
  unfold endsWith
  rw [List.isSuffixOf_iff_suffix]
  exact List.suffix_append _ _

theorem endsWith_false (a : Str) (h : a.getLast? ≠ some '/') : endsWith ['/'] a = false := by
  cases he : endsWith ['/'] a with
  | false => rfl
  | true =>
    unfold endsWith at he
    rw [List.isSuffixOf_iff_suffix] at he
    obtain ⟨t, ht⟩ := he
    rw [← ht] at h
    simp at h

theorem join_ne_nil (cs : List Str) (hne : cs ≠ []) (h : ∀ n ∈ cs, IsName n) : join '/' cs ≠ [] := by
  intro e
  have hs := split_join '/' cs hne (fun n hn => (h n hn).2.1)
  rw [e] at hs
  cases cs with
  | nil => exact hne rfl
  | cons c cs =>
    simp only [split, List.cons.injEq] at hs
    exact (h c (by simp)).1 hs.1.symm

theorem getLast_canonical (cs : List Str) (hne : cs ≠ []) (h : ∀ n ∈ cs, IsName n) : (canonical cs).getLast? ≠ some '/' := by
  rw [canonical_eq, List.getLast?_cons]
  have := getLast_join cs hne h
  cases hl : (join '/' cs).getLast? with
  | none => exact absurd (List.getLast?_eq_none_iff.mp hl) (join_ne_nil cs hne h)
  | some x => rw [hl] at this; simpa using this

theorem withSlashes_canonical (cs : List Str) (h : ∀ n ∈ cs, IsName n) : withSlashes (canonical cs) = slashed cs := by
  cases cs with
  | nil => decide
  | cons c cs =>
    unfold withSlashes
    have h1 : startsWith ['/'] (canonical (c :: cs)) = true := by simp [startsWith, canonical]
    rw [h1]
    simp only [if_true]
    rw [endsWith_false _ (getLast_canonical _ (by simp) h), if_neg (by simp), slashed_eq _ (by simp)]
    rfl

theorem startsWith_join_false (cs : List Str) (h : ∀ n ∈ cs, IsName n) : startsWith ['/'] (join '/' cs) = false := by
  have := join_head cs (fun n hn => ⟨(h n hn).1, (h n hn).2.1⟩)
  cases hj : join '/' cs with
  | nil => rfl
  | cons x xs =>
    rw [hj] at this
    show (('/' == x) && [].isPrefixOf xs) = false
    have : ('/' == x) = false := by
      apply beq_eq_false_iff_ne.mpr
      intro e
      apply this
      rw [← e]
      rfl
    rw [this]
    rfl

/-- Leading and trailing slashes do not matter. -/
theorem withSlashes_join (cs : List Str) (h : ∀ n ∈ cs, IsName n) : withSlashes (join '/' cs) = slashed cs := by
  rw [← withSlashes_canonical cs h]
  unfold withSlashes
  rw [startsWith_join_false cs h]
  have h1 : startsWith ['/'] (canonical cs) = true := by rw [canonical_eq]; simp [startsWith]
  rw [h1]
  simp only [Bool.false_eq_true, if_false, if_true, canonical_eq]

theorem withSlashes_slashed (cs : List Str) : withSlashes (slashed cs) = slashed cs := by
  unfold withSlashes
  have h1 : startsWith ['/'] (slashed cs) = true := by simp [startsWith, slashed]
  rw [h1]
  simp only [if_true]
  have : endsWith ['/'] (slashed cs) = true := by
    by_cases hc : cs = []
    · subst hc; decide
    · rw [slashed_eq cs hc]; exact endsWith_snoc _
  rw [if_pos this]

theorem walk_split_lstrip (path : Str) : walk [] (split '/' (lstrip '/' path)) = walk [] (split '/' path) := by
  induction path with
  | nil => rfl
  | cons x xs ih =>
    by_cases hx : x = '/'
    · subst hx
      unfold lstrip at ih ⊢
      rw [List.dropWhile_cons_of_pos (by decide), ih, split_cons_eq]
      rfl
    · unfold lstrip
      rw [List.dropWhile_cons_of_neg (by simpa using hx)]

theorem lstrip_head (path : Str) : (lstrip '/' path).head? ≠ some '/' := by
  unfold lstrip
  induction path with
  | nil => simp
  | cons x xs ih =>
    by_cases hx : x = '/'
    · rw [List.dropWhile_cons_of_pos (by simpa using hx)]; exact ih
    · rw [List.dropWhile_cons_of_neg (by simpa using hx)]; simpa using hx

theorem posixNormpath_rooted (q : Str) (hq : q.head? ≠ some '/') :
    posixNormpath ('/' :: q) = canonical (walk [] (split '/' q)) ∧ ∀ n ∈ walk [] (split '/' q), IsName n := by
  have hi : initialSlashes ('/' :: q) = 1 := by
    unfold initialSlashes
    have h1 : startsWith ['/', '/'] ('/' :: q) = false := by
      cases q with
      | nil => rfl
      | cons y ys =>
        show (('/' == '/') && (('/' == y) && _)) = false
        have : ('/' == y) = false := by
          apply beq_eq_false_iff_ne.mpr
          intro e
          apply hq
          rw [← e]
          rfl
        rw [this]
        rfl
    rw [h1]
    simp [startsWith]
  have hw := normLoop_walk 1 (by decide) (split '/' ('/' :: q)) [] (by simp) (not_mem_of_mem_split '/' _)
  have hskip : walk [] (split '/' ('/' :: q)) = walk [] (split '/' q) := by
    rw [split_cons_eq]; simp [walk]
  rw [hskip] at hw
  refine ⟨?_, hw.2⟩
  unfold posixNormpath
  rw [if_neg (by simp), hi, hw.1, canonical_eq]
  simp

theorem rstrip_of_last (c : Char) (s : Str) (h : s.getLast? ≠ some c) : rstrip c s = s := by
  unfold rstrip
  have : s.reverse.dropWhile (fun x => decide (x = c)) = s.reverse := by
    cases hs : s.reverse with
    | nil => rfl
    | cons x xs =>
      rw [List.dropWhile_cons_of_neg]
      have : s.getLast? = some x := by rw [← List.head?_reverse, hs]; rfl
      rw [this] at h
      simpa using h
  rw [this, List.reverse_reverse]

/-- The prefix of any path: its names, each followed by a slash. -/
theorem prefixOf_eq (path : Str) : prefixOf path = slashed (walk [] (split '/' path)) ∧ ∀ n ∈ walk [] (split '/' path), IsName n := by
  obtain ⟨h1, h2⟩ := posixNormpath_rooted (lstrip '/' path) (lstrip_head path)
  rw [walk_split_lstrip] at h1 h2
  refine ⟨?_, h2⟩
  unfold prefixOf
  rw [h1]
  cases hw : walk [] (split '/' path) with
  | nil => decide
  | cons n ns =>
    rw [hw] at h2
    rw [rstrip_of_last _ _ (getLast_canonical _ (by simp) h2), slashed_eq _ (by simp)]
    rfl

/-- Where the source is asked. -/
def sourcePath (rest : List Str) : Str := if rest = [] then [] else canonical rest

theorem parsePath_below {β : Type} (ps rest : List Str) (path : Str) (f g : Str → β) (d : β)
    (hps : ∀ n ∈ ps, IsName n) (hrest : ∀ n ∈ rest, IsName n) (hp : withSlashes path = slashed (ps ++ rest)) :
    parsePath (slashed ps) path f g d = f (sourcePath rest) := by
  have hall : ∀ n ∈ ps ++ rest, IsName n := by
    intro n hn
    rcases List.mem_append.mp hn with h | h
    · exact hps n h
    · exact hrest n h
  unfold parsePath
  rw [hp, if_pos ((slashed_prefix _ _ (fun n hn => (hps n hn).2.1) (fun n hn => (hall n hn).2.1)).mpr (List.prefix_append _ _))]
  congr 1
  have hlast : slashed ps = (slashed ps).dropLast ++ ['/'] := by
    have := List.dropLast_concat_getLast (l := slashed ps) (by simp [slashed])
    have hl : (slashed ps).getLast (by simp [slashed]) = '/' := by
      have h1 : endsWith ['/'] (slashed ps) = true := by
        have := withSlashes_slashed ps
        unfold withSlashes at this
        have h1 : startsWith ['/'] (slashed ps) = true := by simp [startsWith, slashed]
        rw [h1] at this
        simp only [if_true] at this
        by_cases he : endsWith ['/'] (slashed ps) = true
        · exact he
        · rw [if_neg he] at this
          have := congrArg List.length this
          simp at this
      unfold endsWith at h1
      rw [List.isSuffixOf_iff_suffix] at h1
      obtain ⟨t, ht⟩ := h1
      simp [← ht]
    rw [hl] at this
    exact this.symm
  have hlen : (slashed ps).dropLast.length = (slashed ps).length - 1 := List.length_dropLast
  have hpos : 0 < (slashed ps).length := by simp [slashed]
  unfold slice
  have b1 : sliceBound (slashed (ps ++ rest)).length ((slashed ps).length - 1) = (slashed ps).dropLast.length := by
    have hle : (slashed ps).length ≤ (slashed (ps ++ rest)).length := by rw [slashed_append, List.length_append]; omega
    unfold sliceBound
    rw [if_neg (by omega)]
    omega
  have b2 : sliceBound (slashed (ps ++ rest)).length (-1) = (slashed (ps ++ rest)).length - 1 := by
    unfold sliceBound
    rw [if_pos (by omega)]
    omega
  rw [b1, b2, ← List.dropLast_eq_take, slashed_append]
  generalize (slashed ps).dropLast = w at hlast
  rw [hlast, List.append_assoc, List.dropLast_append_of_ne_nil (by simp), List.drop_left]
  unfold sourcePath
  by_cases hr : rest = []
  · subst hr; simp
  · rw [if_neg hr]
    have := slashed_eq rest hr
    unfold slashed at this
    rw [List.singleton_append, this, canonical_eq]
    exact List.dropLast_concat

theorem parsePath_above {β : Type} (ps cs more : List Str) (n path : Str) (f g : Str → β) (d : β)
    (hps : ∀ n ∈ ps, IsName n) (he : ps = cs ++ n :: more) (hp : withSlashes path = slashed cs) :
    parsePath (slashed ps) path f g d = g n := by
  subst he
  have hcs : ∀ n ∈ cs, '/' ∉ n := fun n hn => (hps n (List.mem_append_left _ hn)).2.1
  have hn : '/' ∉ n := (hps n (by simp)).2.1
  unfold parsePath
  rw [hp, if_neg, if_pos ((slashed_prefix _ _ hcs (fun n hn => (hps n hn).2.1)).mpr (List.prefix_append _ _))]
  · congr 1
    rw [slashed_append, List.drop_left, List.flatMap_cons, List.append_assoc, List.singleton_append, split_append_cons _ _ _ hn]
    rfl
  · intro h
    have := ((slashed_prefix _ _ (fun n hn => (hps n hn).2.1) hcs).mp h).length_le
    simp at this
    omega

theorem parsePath_beside {β : Type} (ps cs : List Str) (path : Str) (f g : Str → β) (d : β)
    (hps : ∀ n ∈ ps, IsName n) (hcs : ∀ n ∈ cs, IsName n) (hp : withSlashes path = slashed cs)
    (h1 : ¬ ps <+: cs) (h2 : ¬ cs <+: ps) : parsePath (slashed ps) path f g d = d := by
  unfold parsePath
  rw [hp, if_neg, if_neg]
  · intro h; exact h2 ((slashed_prefix _ _ (fun n hn => (hcs n hn).2.1) (fun n hn => (hps n hn).2.1)).mp h)
  · intro h; exact h1 ((slashed_prefix _ _ (fun n hn => (hps n hn).2.1) (fun n hn => (hcs n hn).2.1)).mp h)

/-! ## C37 -/

/-- The ways to write a path: with or without slashes at its ends. -/
def Writes (path : Str) (cs : List Str) : Prop := path = canonical cs ∨ path = join '/' cs ∨ path = slashed cs

theorem withSlashes_writes {path : Str} {cs : List Str} (h : ∀ n ∈ cs, IsName n) (hw : Writes path cs) :
    withSlashes path = slashed cs := by
  rcases hw with rfl | rfl | rfl
  · exact withSlashes_canonical cs h
  · exact withSlashes_join cs h
  · exact withSlashes_slashed cs

/-- **C37**, below the prefix: however prefix and path are written, the path is the rest of it in the source, in all
queries. Missing from the full claim: the version, always the newest one is looked up. -/
theorem C37_below_partial (id : Nat) (path q : Str) (s : Source) (rest : List Str) (hs : RootAgrees s)
    (hrest : ∀ n ∈ rest, IsName n) (hw : Writes q (walk [] (split '/' path) ++ rest)) (v : Int) :
    (prefixed id path s).lookup q v = s.lookup (canonical rest) 0 ∧
    (prefixed id path s).versions q = s.versions (canonical rest) ∧
    (prefixed id path s).list q = s.list (canonical rest) ∧
    (prefixed id path s).listMode q = s.listMode (canonical rest) := by
  obtain ⟨hpre, hps⟩ := prefixOf_eq path
  have hall : ∀ n ∈ walk [] (split '/' path) ++ rest, IsName n := by
    intro n hn
    rcases List.mem_append.mp hn with h | h
    · exact hps n h
    · exact hrest n h
  have hp := withSlashes_writes hall hw
  have e : ∀ {β : Type} (f g : Str → β) (d : β), parsePath (prefixOf path) q f g d = f (sourcePath rest) := by
    intro β f g d
    rw [hpre]
    exact parsePath_below _ rest q f g d hps hrest hp
  simp only [prefixed, plookup, pversions, plist, plistMode, e]
  unfold sourcePath
  by_cases hr : rest = []
  · subst hr
    rw [if_pos rfl]
    exact ⟨hs.1 0, hs.2.1, hs.2.2.1, hs.2.2.2⟩
  · rw [if_neg hr]
    exact ⟨rfl, rfl, rfl, rfl⟩

/-- **C37**, above the prefix: every proper ancestor of the prefix is a folder with exactly one entry, the next name. -/
theorem C37_above (id : Nat) (path q n : Str) (s : Source) (cs more : List Str)
    (he : walk [] (split '/' path) = cs ++ n :: more) (hw : Writes q cs) (v : Int) :
    (∃ i, (prefixed id path s).lookup q v = some i ∧ isDir i.mode = true) ∧
    (prefixed id path s).versions q = 1 ∧
    (∃ l, (prefixed id path s).list q = some l ∧ l.keys = [n]) ∧
    (∃ m, (prefixed id path s).listMode q = some (.dict [(n, m)]) ∧ isDir m = true) := by
  obtain ⟨hpre, hps⟩ := prefixOf_eq path
  have hcs : ∀ x ∈ cs, IsName x := fun x hx => hps x (by rw [he]; exact List.mem_append_left _ hx)
  have hp := withSlashes_writes hcs hw
  have e : ∀ {β : Type} (f g : Str → β) (d : β), parsePath (prefixOf path) q f g d = g n := by
    intro β f g d
    rw [hpre]
    exact parsePath_above _ cs more n q f g d hps he hp
  simp only [prefixed, plookup, pversions, plist, plistMode, e]
  exact ⟨⟨_, rfl, by decide⟩, trivial, ⟨_, rfl, rfl⟩, ⟨_, rfl, by decide⟩⟩

/-- **C37**, everywhere else there is nothing. -/
theorem C37_beside (id : Nat) (path q : Str) (s : Source) (cs : List Str) (hcs : ∀ n ∈ cs, IsName n)
    (hw : Writes q cs) (h1 : ¬ walk [] (split '/' path) <+: cs) (h2 : ¬ cs <+: walk [] (split '/' path)) (v : Int) :
    (prefixed id path s).lookup q v = none ∧ (prefixed id path s).versions q = 0 ∧
    (prefixed id path s).list q = none ∧ (prefixed id path s).listMode q = none := by
  obtain ⟨hpre, hps⟩ := prefixOf_eq path
  have hp := withSlashes_writes hcs hw
  have e : ∀ {β : Type} (f g : Str → β) (d : β), parsePath (prefixOf path) q f g d = d := by
    intro β f g d
    rw [hpre]
    exact parsePath_beside _ cs q f g d hps hcs hp h1 h2
  simp only [prefixed, plookup, pversions, plist, plistMode, e]
  exact ⟨trivial, trivial, trivial, trivial⟩

/-- A source with two versions of the file `x`. -/
def twoVersions : Source where
  id := 0
  immutable := true
  lookup p v := if p = "/x".toList then pick [⟨0o100644, [], 1, []⟩, ⟨0o100644, [], 2, []⟩] v
    else if p = [] ∨ p = ['/'] then some (rootInfo []) else none
  versions p := if p = "/x".toList then 2 else if p = [] ∨ p = ['/'] then 1 else 0
  list p := if p = [] ∨ p = ['/'] then some (.names [['x']]) else none
  listMode p := if p = [] ∨ p = ['/'] then some (.names [['x']]) else none

theorem twoVersions_root : RootAgrees twoVersions := by
  refine ⟨fun v => ?_, rfl, rfl, rfl⟩
  simp [twoVersions]

/-- **C37 is violated by the code**: the first of two versions below a prefix is the second one. -/
theorem C37_violated : ¬ C37_statement := by
  intro h
  have := (h 1 "/p".toList twoVersions [['p']] twoVersions_root (by intro n hn; simp at hn; subst hn; unfold IsName; decide) rfl
    [['p'], ['x']] (by intro n hn; simp at hn; rcases hn with rfl | rfl <;> (unfold IsName; decide))).1 [['x']] rfl 1
  revert this
  decide +kernel

/-- A case of the theorems: prefix `a/b`. -/
example : walk [] (split '/' "//a/./b/".toList) = ["a".toList, "b".toList] ∧
    (prefixed 1 "//a/./b/".toList twoVersions).lookup "/a/b/x".toList 0 = some ⟨0o100644, [], 2, []⟩ ∧
    (prefixed 1 "//a/./b/".toList twoVersions).versions "a".toList = 1 ∧
    (prefixed 1 "//a/./b/".toList twoVersions).lookup "/ab".toList 0 = none := by decide +kernel

end Verif.Compose
