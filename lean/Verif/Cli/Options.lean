import Verif.Py
import Verif.PyStr

/-!
# C159, C160, C161: lists on the command line (ratarmount/cli.py:107-122, 288-298, ratarmount/CLIHelpers.py:197-219, ratarmount/actions.py:225-227)
-/

namespace Verif.Options

open Verif.Py

/-! ## comma-separated lists -/

/-- `values.replace(',,', '\0')` (cli.py:117). -/
def replaceDouble : Str → Str
  | [] => []
  | [c] => [c]
  | c :: d :: cs => if c = ',' ∧ d = ',' then '\x00' :: replaceDouble cs else c :: replaceDouble (d :: cs)

/-- `str.strip()`; `space` says which characters are white space (Python library, used at cli.py:119). -/
def strip (space : Char → Bool) (s : Str) : Str := ((s.dropWhile space).reverse.dropWhile space).reverse

/-- `part.replace('\0', ',')` (cli.py:119). -/
def unmask (s : Str) : Str := s.map (fun c => if c = '\x00' then ',' else c)

/-- The items of one argument (cli.py:115-120). -/
def items (space : Char → Bool) (values : Str) : List Str :=
  ((split ',' (replaceDouble values)).filter (fun p => !(strip space p).isEmpty)).map (fun p => strip space (unmask p))

/-- The action for one use of the option (cli.py:107-122): the flag says whether it has been seen before. -/
def use (space : Char → Bool) (st : Bool × List Str) (values : Str) : Bool × List Str :=
  (true, (if st.1 then st.2 else []) ++ items space values)

/-- All uses of the option on a command line (cli.py:107-122, Python's argparse). -/
def parsed (space : Char → Bool) (default : List Str) (uses : List Str) : List Str := (uses.foldl (use space) (false, default)).2

/-! ## passwords -/

/-- `remove_duplicates_stable` (utils.py:321-328) with the values seen and those kept so far. -/
def dedupLoop {α : Type} [DecidableEq α] : List α → List α → List α
  | [], kept => kept
  | x :: xs, kept => dedupLoop xs (if x ∈ kept then kept else kept ++ [x])

/-- `remove_duplicates_stable` (utils.py:321-328). -/
def dedup {α : Type} [DecidableEq α] (xs : List α) : List α := dedupLoop xs []

/-- The passwords (CLIHelpers.py:197-201, actions.py:225-227, FuseMount.py:497-508): the one given, then those of the file. -/
def passwords (password : List UInt8) (file : Option (List UInt8)) : List (List UInt8) :=
  dedup ((if password = [] then [] else [password]) ++ (match file with | none => [] | some b => split 10 b))

/-! ## index folders and backends -/

/-- JSON for lists of strings (Python library, used at cli.py:293, CLIHelpers.py:206). -/
structure Json where
  dumps : List Str → Str
  loads : Str → Except PyErr (List Str)

/-- The default of `--index-folders` (cli.py:288-298). -/
def foldersAsString (j : Json) (folders : List Str) : Str :=
  if folders.any (fun f => f.contains ',') then j.dumps folders else join ',' folders

/-- The folders of an argument (CLIHelpers.py:203-210). An empty argument stays an empty string. -/
def parseFolders (j : Json) (argument : Str) : Except PyErr (List Str) :=
  match argument with
  | [] => .ok []
  | c :: cs =>
    if c = '[' then j.loads (c :: cs)
    else if (c :: cs).contains ',' then .ok (split ',' (c :: cs))
    else .ok [c :: cs]

/-- The default folders (cli.py:288-291): beside the archive, in the cache if there is one, in the home folder. -/
def defaultFolders (cache : Option Str) : List Str :=
  match cache with
  | none => [[], "~/.ratarmount".toList]
  | some c => [[], c, "~/.ratarmount".toList]

/-- `args.prioritizedBackends` (CLIHelpers.py:215-219). -/
def prioritized (uses : List Str) : List Str := (uses.flatMap (split ',')).reverse

/-! ## specification -/

/-- An item as one would write it: not empty, without white space at the ends. -/
structure IsItem (space : Char → Bool) (s : Str) : Prop where
  head : ∃ c cs, s = c :: cs ∧ space c = false
  last : ∃ cs c, s = cs ++ [c] ∧ space c = false
  plain : '\x00' ∉ s

/-- The text of an item: "`,,` : Literal comma" (cli.py:365). -/
def double (s : Str) : Str := s.flatMap (fun c => if c = ',' then [',', ','] else [c])

/-- **C159**: a list that is written as documented is read back. -/
def C159_statement : Prop :=
  ∀ (space : Char → Bool), space ',' = false → space '\x00' = false → space ' ' = true → ∀ (l : List Str), (∀ s ∈ l, IsItem space s) →
    items space (join ',' (l.map double)) = l

/-! ## proofs: comma-separated lists -/

/-- The text after the first replacement. -/
def mask (s : Str) : Str := s.map (fun c => if c = ',' then '\x00' else c)

theorem rd_other (c : Char) (h : c ≠ ',') (cs : Str) : replaceDouble (c :: cs) = c :: replaceDouble cs := by
  cases cs with
  | nil => rfl
  | cons d cs =>
    show (if c = ',' ∧ d = ',' then _ else _) = _
    rw [if_neg (fun hc => h hc.1)]

theorem rd_comma (cs : Str) (h : cs.head? ≠ some ',') : replaceDouble (',' :: cs) = ',' :: replaceDouble cs := by
  cases cs with
  | nil => rfl
  | cons d cs =>
    show (if ',' = ',' ∧ d = ',' then _ else _) = _
    rw [if_neg]
    rintro ⟨-, rfl⟩
    exact h rfl

theorem rd_double (a r : Str) : replaceDouble (double a ++ r) = mask a ++ replaceDouble r := by
  induction a with
  | nil => rfl
  | cons c a ih =>
    show replaceDouble ((if c = ',' then [',', ','] else [c]) ++ double a ++ r) = (if c = ',' then '\x00' else c) :: (mask a ++ replaceDouble r)
    by_cases h : c = ','
    · rw [if_pos h, if_pos h]
      show replaceDouble (',' :: ',' :: (double a ++ r)) = _
      rw [← ih]
      rfl
    · rw [if_neg h, if_neg h]
      show replaceDouble (c :: (double a ++ r)) = _
      rw [rd_other c h, ih]

theorem mask_comma (a : Str) : ',' ∉ mask a := by
  intro h
  obtain ⟨c, -, hc⟩ := List.mem_map.mp h
  split at hc
  · exact absurd hc (by decide)
  · next hn => exact hn hc

theorem unmask_mask (a : Str) (h : '\x00' ∉ a) : unmask (mask a) = a := by
  unfold unmask mask
  rw [List.map_map]
  conv => rhs; rw [← List.map_id a]
  refine List.map_congr_left (fun c hc => ?_)
  show (if (if c = ',' then '\x00' else c) = '\x00' then ',' else (if c = ',' then '\x00' else c)) = c
  by_cases h1 : c = ','
  · rw [if_pos h1, if_pos rfl, h1]
  · rw [if_neg h1, if_neg]
    rintro rfl
    exact h hc

theorem strip_item {space : Char → Bool} {s : Str} (h : IsItem space s) : strip space s = s := by
  obtain ⟨c, cs, hc, h1⟩ := h.head
  obtain ⟨ds, d, hd, h2⟩ := h.last
  unfold strip
  have e : s.dropWhile space = s := by rw [hc, List.dropWhile_cons, h1]; rfl
  rw [e, hd, List.reverse_append]
  show ((d :: ds.reverse).dropWhile space).reverse = _
  rw [List.dropWhile_cons, h2]
  simp

theorem strip_space {space : Char → Bool} (c : Char) (h : space c = true) (s : Str) : strip space (c :: s) = strip space s := by
  unfold strip
  rw [List.dropWhile_cons, h]
  rfl

theorem dropWhile_nil {p : Char → Bool} : ∀ {s : Str}, s.dropWhile p = [] → ∀ c ∈ s, p c = true := by
  intro s
  induction s with
  | nil => intro _ c hc; cases hc
  | cons d s ih =>
    intro h c hc
    rw [List.dropWhile_cons] at h
    split at h
    · next hd =>
      cases hc with
      | head => exact hd
      | tail _ hc => exact ih h c hc
    · cases h

theorem strip_ne_nil {space : Char → Bool} {s : Str} (c : Char) (hc : c ∈ s) (h : space c = false) : strip space s ≠ [] := by
  unfold strip
  intro he
  have hall := dropWhile_nil (List.reverse_eq_nil_iff.mp he)
  have hin : c ∈ s.dropWhile space := by
    clear he hall
    induction s with
    | nil => cases hc
    | cons d s ih =>
      rw [List.dropWhile_cons]
      split
      · next hd =>
        cases hc with
        | head => rw [h] at hd; cases hd
        | tail _ hc => exact ih hc
      · exact hc
  have := hall c (List.mem_reverse.mpr hin)
  rw [h] at this
  cases this

theorem mask_kept {space : Char → Bool} (h0 : space '\x00' = false) {s : Str} (h : IsItem space s) (pre : Str) :
    (!(strip space (pre ++ mask s)).isEmpty) = true := by
  obtain ⟨c, cs, hc, h1⟩ := h.head
  have : strip space (pre ++ mask s) ≠ [] := by
    refine strip_ne_nil (if c = ',' then '\x00' else c) (List.mem_append_right _ (List.mem_map.mpr ⟨c, by rw [hc]; simp, rfl⟩)) ?_
    split
    · exact h0
    · exact h1
  cases hs : strip space (pre ++ mask s) with
  | nil => exact absurd hs this
  | cons _ _ => rfl

theorem rd_join (sep : Str) (hsep : sep = [] ∨ sep = [' ']) : ∀ (a : Str) (l : List Str), (∀ s ∈ l, s ≠ []) →
    (sep = [] → ∀ s ∈ l, s.head? ≠ some ',') →
    replaceDouble (join ',' (double a :: l.map (fun s => sep ++ double s))) = join ',' (mask a :: l.map (fun s => sep ++ mask s)) := by
  intro a l
  induction l generalizing a with
  | nil => intro _ _; simp only [List.map_nil, join]; have := rd_double a []; simpa [replaceDouble] using this
  | cons b l ih =>
    intro hne hh
    have hb := ih b (fun s hs => hne s (List.mem_cons_of_mem _ hs)) (fun he s hs => hh he s (List.mem_cons_of_mem _ hs))
    have e1 : ∀ (x y : Str) (ys : List Str), join ',' (x :: y :: ys) = x ++ ',' :: join ',' (y :: ys) := fun x y ys => rfl
    have e2 : ∀ (x : Str) (ys : List Str), join ',' ((sep ++ x) :: ys) = sep ++ join ',' (x :: ys) := by
      intro x ys
      cases ys with
      | nil => rfl
      | cons y ys => rw [e1, e1, List.append_assoc]
    rw [List.map_cons, List.map_cons, e1, e1, rd_double, e2, e2]
    have hcomma : replaceDouble (',' :: (sep ++ join ',' (double b :: l.map (fun s => sep ++ double s)))) =
        ',' :: (sep ++ join ',' (mask b :: l.map (fun s => sep ++ mask s))) := by
      rw [rd_comma]
      · rcases hsep with rfl | rfl
        · exact congrArg _ hb
        · show ',' :: replaceDouble (' ' :: _) = _
          rw [rd_other ' ' (by decide)]
          exact congrArg (fun x => ',' :: ' ' :: x) hb
      · rcases hsep with rfl | rfl
        · have hbh := hh rfl b (by simp)
          have hbn := hne b (by simp)
          cases b with
          | nil => exact absurd rfl hbn
          | cons c b =>
            have hc : c ≠ ',' := fun hc => hbh (by rw [hc]; rfl)
            have : ∀ ys, (join ',' (double (c :: b) :: ys)).head? = some c := by
              intro ys
              have ed : double (c :: b) = c :: double b := by
                show (if c = ',' then [',', ','] else [c]) ++ double b = _
                rw [if_neg hc]; rfl
              rw [ed]
              cases ys <;> rfl
            rw [List.nil_append, this]
            simpa using hc
        · simp
    rw [hcomma]

theorem items_join (space : Char → Bool) (h0 : space '\x00' = false) (sep : Str) (hsep : sep = [] ∨ (sep = [' '] ∧ space ' ' = true))
    (a : Str) (l : List Str) (h : ∀ s ∈ a :: l, IsItem space s) (hh : sep = [] → ∀ s ∈ l, s.head? ≠ some ',') :
    items space (join ',' (double a :: l.map (fun s => sep ++ double s))) = a :: l := by
  have hne : ∀ s ∈ l, s ≠ [] := by
    intro s hs
    obtain ⟨c, cs, e, -⟩ := (h s (List.mem_cons_of_mem _ hs)).head
    rw [e]; simp
  unfold items
  rw [rd_join sep (hsep.imp id And.left) a l hne hh, split_join ',' _ (by simp)]
  · have hk : ∀ s, IsItem space s → ∀ pre, (pre = [] ∨ pre = sep) →
        (!(strip space (pre ++ mask s)).isEmpty) = true ∧ strip space (unmask (pre ++ mask s)) = s := by
      intro s hs pre hpre
      refine ⟨mask_kept h0 hs pre, ?_⟩
      have e : unmask (pre ++ mask s) = pre ++ s := by
        have := unmask_mask s hs.plain
        unfold unmask at this ⊢
        rw [List.map_append, this]
        rcases hpre with rfl | rfl
        · rfl
        · rcases hsep with rfl | ⟨rfl, -⟩ <;> rfl
      rw [e]
      rcases hpre with rfl | rfl
      · exact strip_item hs
      · rcases hsep with rfl | ⟨rfl, hsp⟩
        · exact strip_item hs
        · show strip space (' ' :: s) = s
          rw [strip_space ' ' hsp, strip_item hs]
    have hrest : ∀ l : List Str, (∀ s ∈ l, IsItem space s) →
        ((l.map (fun s => sep ++ mask s)).filter (fun p => !(strip space p).isEmpty)).map (fun p => strip space (unmask p)) = l := by
      intro l hl
      induction l with
      | nil => rfl
      | cons s l ih =>
        obtain ⟨k1, k2⟩ := hk s (hl s (by simp)) sep (.inr rfl)
        rw [List.map_cons, List.filter_cons, if_pos k1, List.map_cons, k2, ih (fun s hs => hl s (List.mem_cons_of_mem _ hs))]
    obtain ⟨k1, k2⟩ := hk a (h a (by simp)) [] (.inl rfl)
    rw [List.nil_append] at k1 k2
    rw [List.filter_cons, if_pos k1, List.map_cons, k2, hrest l (fun s hs => h s (List.mem_cons_of_mem _ hs))]
  · intro p hp
    rcases List.mem_cons.mp hp with rfl | hp
    · exact mask_comma a
    · obtain ⟨s, -, rfl⟩ := List.mem_map.mp hp
      intro hm
      rcases List.mem_append.mp hm with hm | hm
      · rcases hsep with rfl | ⟨rfl, -⟩
        · cases hm
        · simp at hm
      · exact mask_comma s hm

/-- **C159**, provable part: lists whose items, except the first, do not begin with a comma. -/
theorem C159_partial (space : Char → Bool) (h0 : space '\x00' = false) (l : List Str)
    (h : ∀ s ∈ l, IsItem space s) (hh : ∀ s ∈ l.tail, s.head? ≠ some ',') : items space (join ',' (l.map double)) = l := by
  cases l with
  | nil =>
    show items space [] = []
    unfold items
    have : split ',' (replaceDouble []) = [[]] := rfl
    rw [this]
    rfl
  | cons a l =>
    have := items_join space h0 [] (.inl rfl) a l h (fun _ => hh)
    simpa using this

/-- **C159**: with a space after each separator, every list is read back. -/
theorem C159_spaced (space : Char → Bool) (h0 : space '\x00' = false) (hs : space ' ' = true) (a : Str) (l : List Str)
    (h : ∀ s ∈ a :: l, IsItem space s) : items space (join ',' (double a :: l.map (fun s => ' ' :: double s))) = a :: l :=
  items_join space h0 [' '] (.inr ⟨rfl, hs⟩) a l h (fun he => by cases he)

theorem foldl_use (space : Char → Bool) (uses : List Str) : ∀ l, (uses.foldl (use space) (true, l)).2 = l ++ uses.flatMap (items space) := by
  induction uses with
  | nil => intro l; simp
  | cons u us ih =>
    intro l
    rw [List.foldl_cons]
    show (us.foldl (use space) (true, l ++ items space u)).2 = _
    rw [ih, List.flatMap_cons, List.append_assoc]

/-- **C159**: the uses of an option add up, and the default is used only without any. -/
theorem C159_uses (space : Char → Bool) (default uses : List Str) :
    parsed space default uses = if uses = [] then default else uses.flatMap (items space) := by
  cases uses with
  | nil => rfl
  | cons u us =>
    rw [if_neg (by simp)]
    show (us.foldl (use space) (true, [] ++ items space u)).2 = _
    rw [foldl_use]
    rfl

/-- White space of ASCII, for examples. -/
def asciiSpace (c : Char) : Bool := c = ' ' || ('\t' ≤ c && c ≤ '\r')

/-- **C159** is violated: the items `b` and `,a`, written as `b,,,a`, are read as `b,` and `a`. -/
theorem C159_violated : ¬ C159_statement := by
  intro h
  have := h asciiSpace (by decide) (by decide) (by decide) [['b'], [',', 'a']] (by
    intro s hs
    rcases List.mem_cons.mp hs with rfl | hs
    · exact ⟨⟨'b', [], rfl, by decide⟩, ⟨[], 'b', rfl, by decide⟩, by decide⟩
    · rw [List.mem_singleton.mp hs]
      exact ⟨⟨',', ['a'], rfl, by decide⟩, ⟨[','], 'a', rfl, by decide⟩, by decide⟩)
  revert this
  decide +kernel

example : items asciiSpace "/archive, .gz*,,a,,.x,,".toList = ["/archive".toList, ".gz*,a,.x,".toList] := by decide +kernel

example : IsItem asciiSpace "a,b".toList := ⟨⟨'a', [',', 'b'], rfl, by decide⟩, ⟨['a', ','], 'b', rfl, by decide⟩, by decide⟩

/-! ## proofs: passwords -/

theorem mem_dedupLoop {α : Type} [DecidableEq α] (xs : List α) : ∀ kept x, x ∈ dedupLoop xs kept ↔ x ∈ kept ∨ x ∈ xs := by
  induction xs with
  | nil => intro kept x; simp [dedupLoop]
  | cons y ys ih =>
    intro kept x
    unfold dedupLoop
    rw [ih]
    split
    · next hy =>
      rw [List.mem_cons]
      constructor
      · rintro (h | h)
        · exact .inl h
        · exact .inr (.inr h)
      · rintro (h | h | h)
        · exact .inl h
        · subst h; exact .inl hy
        · exact .inr h
    · rw [List.mem_append, List.mem_singleton, List.mem_cons, or_assoc]

/-- The values kept come before those added, and the added ones are in the order of their first appearance. -/
theorem dedupLoop_sorted (all xs : List (List UInt8)) : ∀ done kept, all = done ++ xs → (∀ x, x ∈ kept ↔ x ∈ done) →
    kept.Pairwise (fun a b => all.idxOf a < all.idxOf b) → (dedupLoop xs kept).Pairwise (fun a b => all.idxOf a < all.idxOf b) := by
  induction xs with
  | nil => intro done kept _ _ h; exact h
  | cons y ys ih =>
    intro done kept he hk hp
    unfold dedupLoop
    refine ih (done ++ [y]) _ (by rw [he]; simp) ?_ ?_
    · intro x
      rw [List.mem_append, List.mem_singleton]
      split
      · next hy =>
        rw [hk]
        constructor
        · exact .inl
        · rintro (h | h)
          · exact h
          · subst h; exact (hk _).mp hy
      · rw [List.mem_append, List.mem_singleton, hk]
    · split
      · exact hp
      · next hy =>
        rw [List.pairwise_append]
        refine ⟨hp, List.pairwise_singleton _ _, fun a ha b hb => ?_⟩
        rw [List.mem_singleton.mp hb]
        have ha' := (hk a).mp ha
        have hy' : y ∉ done := fun h => hy ((hk y).mpr h)
        rw [he, List.idxOf_append, if_pos ha', List.idxOf_append, if_neg hy']
        have := List.idxOf_lt_length_of_mem ha'
        omega

theorem mem_dedup {α : Type} [DecidableEq α] (xs : List α) (x : α) : x ∈ dedup xs ↔ x ∈ xs := by
  unfold dedup
  rw [mem_dedupLoop]
  simp

theorem dedup_sorted (xs : List (List UInt8)) : (dedup xs).Pairwise (fun a b => xs.idxOf a < xs.idxOf b) :=
  dedupLoop_sorted xs xs [] [] rfl (fun _ => Iff.rfl) .nil

/-- **C160**: with a file of lines that are separated by line feeds, exactly the given password, if it is not empty, and the lines are tried,
each once, and in the order of their first appearance. -/
theorem C160_passwords (password : List UInt8) (lines : List (List UInt8)) (hne : lines ≠ []) (h : ∀ l ∈ lines, 10 ∉ l) :
    (∀ p, p ∈ passwords password (some (join 10 lines)) ↔ (p = password ∧ p ≠ []) ∨ p ∈ lines) ∧
    (passwords password (some (join 10 lines))).Pairwise
      (fun a b => ((if password = [] then [] else [password]) ++ lines).idxOf a < ((if password = [] then [] else [password]) ++ lines).idxOf b) ∧
    (passwords password (some (join 10 lines))).Nodup := by
  have e : passwords password (some (join 10 lines)) = dedup ((if password = [] then [] else [password]) ++ lines) := by
    unfold passwords
    simp only
    rw [split_join 10 lines hne h]
  rw [e]
  have hp := dedup_sorted ((if password = [] then [] else [password]) ++ lines)
  refine ⟨fun p => ?_, hp, ?_⟩
  · rw [mem_dedup, List.mem_append]
    refine or_congr ?_ Iff.rfl
    split
    · next hz => subst hz; simp
    · next hz =>
      rw [List.mem_singleton]
      exact ⟨fun hq => ⟨hq, hq ▸ hz⟩, And.left⟩
  · exact hp.imp (fun hlt heq => by subst heq; omega)

/-- **C160**: a given password is tried first. -/
theorem C160_first (password : List UInt8) (hne : password ≠ []) (file : Option (List UInt8)) :
    (passwords password file).head? = some password := by
  have loop : ∀ (xs : List (List UInt8)) (k : List UInt8) (kept : List (List UInt8)), (dedupLoop xs (k :: kept)).head? = some k := by
    intro xs
    induction xs with
    | nil => intro k kept; rfl
    | cons x xs ih =>
      intro k kept
      unfold dedupLoop
      split
      · exact ih k kept
      · exact ih k (kept ++ [x])
  unfold passwords dedup
  rw [if_neg hne]
  show (dedupLoop _ [password]).head? = _
  exact loop _ password []

/-- **C160**: a file that ends with a line feed, as usual, adds the empty password. -/
theorem C160_trailing (password : List UInt8) (lines : List (List UInt8)) (h : ∀ l ∈ lines, 10 ∉ l) :
    [] ∈ passwords password (some (join 10 (lines ++ [[]]))) :=
  ((C160_passwords password (lines ++ [[]]) (by simp) (fun l hl => by
    rcases List.mem_append.mp hl with hl | hl
    · exact h l hl
    · rw [List.mem_singleton.mp hl]; simp)).1 []).mpr (.inr (by simp))

/-- Without a file only the given password is tried. -/
theorem C160_none (password : List UInt8) : passwords password none = if password = [] then [] else [password] := by
  unfold passwords
  split <;> rfl

example : passwords [1] (some [2, 10, 1, 10, 3, 10, 2, 10]) = [[1], [2], [3], []] := by decide

/-! ## proofs: index folders and backends -/

/-- **C161**: the default of `--index-folders`, which is a string, stands for the default folders, with and without commas in the path
of the cache. -/
theorem C161_default (j : Json) (hj : ∀ l, j.loads (j.dumps l) = .ok l) (hb : ∀ l, (j.dumps l).head? = some '[') (cache : Option Str) :
    parseFolders j (foldersAsString j (defaultFolders cache)) = .ok (defaultFolders cache) := by
  have key : ∀ f fs, parseFolders j (foldersAsString j ([] :: f :: fs)) = .ok ([] :: f :: fs) := by
    intro f fs
    unfold foldersAsString
    split
    · cases hd : j.dumps ([] :: f :: fs) with
      | nil => have := hb ([] :: f :: fs); rw [hd] at this; cases this
      | cons c cs =>
        have hc : c = '[' := by have := hb ([] :: f :: fs); rw [hd] at this; exact Option.some.inj this
        have hl := hj ([] :: f :: fs)
        rw [hd] at hl
        unfold parseFolders
        simp only [if_pos hc]
        exact hl
    · next hn =>
      have hall : ∀ p ∈ [] :: f :: fs, ',' ∉ p := by
        intro p hp hc
        exact hn (List.any_eq_true.mpr ⟨p, hp, by simpa using hc⟩)
      have e : join ',' ([] :: f :: fs) = ',' :: join ',' (f :: fs) := rfl
      have hs := split_join ',' ([] :: f :: fs) (by simp) hall
      rw [e] at hs ⊢
      unfold parseFolders
      simp only
      rw [if_neg (by decide), if_pos (by simp), hs]
  cases cache with
  | none => exact key _ _
  | some c => exact key _ _

/-- **C161**: an argument with commas that does not begin with a bracket lists its parts, an argument without is one folder, and one with
a bracket is read as JSON. -/
theorem C161_argument (j : Json) (folders : List Str) (hne : folders ≠ []) (h : ∀ f ∈ folders, ',' ∉ f)
    (hb : (join ',' folders).head? ≠ some '[') (hz : join ',' folders ≠ []) : parseFolders j (join ',' folders) = .ok folders := by
  have hs := split_join ',' folders hne h
  cases hj : join ',' folders with
  | nil => exact absurd hj hz
  | cons c cs =>
    rw [hj] at hs hb
    unfold parseFolders
    simp only
    rw [if_neg (fun hc => hb (by rw [hc]; rfl))]
    by_cases hc : ',' ∈ c :: cs
    · rw [if_pos (by simpa using hc), hs]
    · rw [if_neg (by simpa using hc)]
      cases folders with
      | nil => exact absurd rfl hne
      | cons f fs =>
        cases fs with
        | nil => exact congrArg (fun x => Except.ok [x]) hj.symm
        | cons g gs =>
          exfalso
          apply hc
          rw [← hj]
          show ',' ∈ f ++ ',' :: join ',' (g :: gs)
          simp

/-- **C161**: of the backends that can be used, the one that was specified last is the first. -/
theorem C161_backends (uses : List (List Str)) (hu : ∀ u ∈ uses, u ≠ [] ∧ ∀ b ∈ u, ',' ∉ b) (usable : Str → Bool) (pre post : List Str) (b : Str)
    (he : uses.flatten = pre ++ b :: post) (hb : usable b = true) (hp : ∀ x ∈ post, usable x = false) :
    (prioritized (uses.map (join ','))).find? usable = some b ∧ (prioritized (uses.map (join ','))).length = uses.flatten.length := by
  have e : (uses.map (join ',')).flatMap (split ',') = uses.flatten := by
    rw [List.flatMap_map]
    clear he
    induction uses with
    | nil => rfl
    | cons u us ih =>
      rw [List.flatMap_cons, List.flatten_cons, ih (fun u hx => hu u (List.mem_cons_of_mem _ hx)),
        split_join ',' u (hu u (by simp)).1 (hu u (by simp)).2]
  unfold prioritized
  rw [e]
  refine ⟨?_, List.length_reverse⟩
  rw [he, List.reverse_append, List.reverse_cons, List.append_assoc, List.find?_append]
  have : post.reverse.find? usable = none := by
    rw [List.find?_eq_none]
    intro x hx
    rw [hp x (List.mem_reverse.mp hx)]
    simp
  rw [this]
  show (List.find? usable (b :: pre.reverse)) = some b
  rw [List.find?_cons, hb]

example : prioritized ["rarfile,libarchive".toList, "zip".toList] = ["zip".toList, "libarchive".toList, "rarfile".toList] := by decide +kernel

example : join ',' [[], "~/.foo".toList] = ",~/.foo".toList := by decide

end Verif.Options
