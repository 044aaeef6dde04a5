import Verif.Fuse.HtmlMount
import Verif.Formats.Rar

/-!
# C217: data URLs in the text of an HTML file are found at their places
(core/ratarmountcore/mountsource/formats/html.py)

`handle_data` (html.py:188-208) looks with three regular expressions for data URLs in the text between tags: in `url(…)` of style sheets, and between
quotes. The places are lines and columns, which `gather_embedded_files` (html.py:353-396) changes into numbers of characters and then of bytes.

Simplified: `html.parser` gives the text as it is in the file (it does so for style sheets and scripts, but replaces character references elsewhere), and
`getpos` is the line and column of its start.
-/

namespace Verif.HtmlPlaces

open Verif Verif.Py Verif.Html
open Verif.Fuse.HtmlMount (Written)

/-! ## model -/

/-- What the groups of a match are: `original_url`, the number of characters before `data_url`, and `data_url` (html.py:120-128). -/
structure Found where
  addr : Option Str
  lead : Nat
  value : Str
  deriving DecidableEq

/-- The number of characters of the match: one for `)` or the quote follows the data URL (html.py:124-128). -/
def Found.len (x : Found) : Nat := x.lead + x.value.length + 1

/-- `DATA_URL_PREFIX`, `[^close]+` and `close` (html.py:122-128): the data URL. -/
def body (close : Char) (s : Str) : Option Str :=
  match parseUrl s with
  | none => none
  | some (_, _, rest) =>
    if rest.takeWhile (fun c => c != close) = [] then none
    else if rest.contains close then some (s.take (s.length - rest.length + (rest.takeWhile (fun c => c != close)).length))
    else none

/-- `url[(]` and the data URL (html.py:124-126). -/
def matchUrl (s : Str) : Option Str := if startsWith "url(".toList s then body ')' (s.drop 4) else none

/-- `DATA_URL_IN_CSS` (html.py:124-126) at the start of a text. If there is a comment, `url(` has to follow it. -/
def matchCss (s : Str) : Option Found :=
  if startsWith "/*savepage-url=".toList s then
    if (s.drop 15).takeWhile (fun c => c != '*') = [] then none
    else if startsWith "*/".toList ((s.drop 15).dropWhile (fun c => c != '*')) then
      (matchUrl (((s.drop 15).dropWhile (fun c => c != '*')).drop 2)).map
        (fun v => ⟨some ((s.drop 15).takeWhile (fun c => c != '*')), 21 + ((s.drop 15).takeWhile (fun c => c != '*')).length, v⟩)
    else none
  else (matchUrl s).map (fun v => ⟨none, 4, v⟩)

/-- `DATA_URL_SINGLE_QUOTE` and `DATA_URL_DOUBLE_QUOTE` (html.py:127-128). -/
def matchQuoted (q : Char) (s : Str) : Option Found :=
  match s with
  | [] => none
  | c :: t => if c = q then (body q t).map (fun v => ⟨none, 1, v⟩) else none

/-- `finditer` (Python library, used at html.py:202-207), with the places of the matches. -/
def finditer (f : Str → Option Found) (p : Nat) (s : Str) : List (Nat × Found) :=
  match s with
  | [] => []
  | c :: t =>
    match f (c :: t) with
    | none => finditer f (p + 1) t
    | some x => (p, x) :: finditer f (p + x.len) (t.drop (x.lead + x.value.length))
termination_by s.length
decreasing_by all_goals simp only [List.length_cons, List.length_drop]; omega

/-- The candidate of a match in a text that starts at `pos` (html.py:196-201). An address that is missing is `None` or an empty text. -/
def candidate (pos : Nat) (m : Nat × Found) : Str × Candidate :=
  (m.2.addr.getD [], ⟨pos + m.1 + m.2.lead, some (pos + m.1 + m.2.lead + m.2.value.length), []⟩)

/-- `handle_data` (html.py:188-208). -/
def handleData (pos : Nat) (data : Str) : List (Str × Candidate) :=
  (finditer matchCss 0 data ++ (finditer (matchQuoted '\'') 0 data ++ finditer (matchQuoted '"') 0 data)).map (candidate pos)

/-- The loop over one piece of the file (html.py:362-365): the places after its newlines. -/
def newlines (base : Nat) : Str → List Nat
  | [] => []
  | c :: s => if c = '\n' then (base + 1) :: newlines (base + 1) s else newlines (base + 1) s

/-- `lineOffsets` (html.py:357-369), for the pieces in which the file is read. -/
def lineOffsets (base : Nat) : List Str → List Nat
  | [] => []
  | d :: ds => newlines base d ++ lineOffsets (base + d.length) ds

/-- `to_char_offset` (html.py:371-372). Python's negative indexes are not modelled. -/
def toCharOffset (pieces : List Str) (line column : Nat) : Option Nat := ((0 :: lineOffsets 0 pieces)[line - 1]?).map (· + column)

/-- `list.sort` (Python library, used at html.py:382-388). -/
def insertSorted (n : Nat) : List Nat → List Nat
  | [] => [n]
  | m :: ms => if n ≤ m then n :: m :: ms else m :: insertSorted n ms

/-- `sorted` (html.py:382-388). -/
def sorted : List Nat → List Nat
  | [] => []
  | n :: ns => insertSorted n (sorted ns)

/-- The loop that fills `char_to_byte_offset` (html.py:379-396); `done` is `processed_data_size`. -/
def fill (text : Str) : List Nat → Nat → Dict Nat Nat → Except PyErr (Dict Nat Nat)
  | [], _, d => .ok d
  | n :: ns, done, d =>
    if n < done then .error .assertionError
    else if done + ((text.drop done).take (n - done)).length ≠ n then .error .assertionError
    else fill text ns n (d.set n (textBytes (text.take n)))

/-- `char_to_byte_offset` (html.py:379-396). -/
def byteOffsets (text : Str) (offsets : List Nat) : Except PyErr (Dict Nat Nat) := fill text (sorted offsets) 0 []

/-! ## specification -/

/-- The characters of the parts before the comma. -/
def Head (s : Str) : Prop := ∀ c ∈ s, c ≠ ';' ∧ c ≠ ',' ∧ c ≠ '"' ∧ c ≠ '\''

/-- A data URL with some data, up to the character `close`. -/
def IsUrl (close : Char) (v : Str) : Prop :=
  ∃ m ps payload, MediaType m ∧ Head m ∧ (∀ p ∈ ps, Head p) ∧ v = dataUrl m ps payload ∧ payload ≠ [] ∧ close ∉ payload

/-- What stands before a data URL in a style sheet: the comment with the address, if there is one. -/
def opening : Option Str → Str
  | none => "url(".toList
  | some u => "/*savepage-url=".toList ++ u ++ "*/url(".toList

/-- At the place `p`, the style sheet has a data URL, with this address. -/
structure CssAt (data : Str) (p : Nat) (addr : Option Str) (v : Str) : Prop where
  named : ∀ u, addr = some u → u ≠ [] ∧ '*' ∉ u
  url : IsUrl ')' v
  here : ∃ b a, data = b ++ (opening addr ++ (v ++ ')' :: a)) ∧ b.length = p

/-- At the place `p`, there is a data URL between quotes. -/
structure QuotedAt (q : Char) (data : Str) (p : Nat) (v : Str) : Prop where
  url : IsUrl q v
  here : ∃ b a, data = b ++ (q :: (v ++ q :: a)) ∧ b.length = p

/-- The line and the column of the end of a text: the last line is what follows the last newline. -/
def Position (before : Str) (line column : Nat) : Prop :=
  ∃ lines last, before = lines ++ last ∧ '\n' ∉ last ∧ (lines = [] ∨ ∃ l, lines = l ++ ['\n']) ∧ line = lines.count '\n' + 1 ∧ column = last.length

/-- C217 as claimed: data URLs in `url(…)` are found. In CSS, white space may stand before and after an address in parentheses. -/
def C217_statement : Prop :=
  ∀ (before sp sp' v after : Str), (∀ c ∈ sp, c = ' ') → (∀ c ∈ sp', c = ' ') → IsUrl ')' v → ' ' ∉ v → '(' ∉ before → '/' ∉ before →
    ∃ x ∈ handleData 0 (before ++ ("url(".toList ++ (sp ++ (v ++ (sp' ++ ')' :: after))))), x.2.start = before.length + 4 + sp.length

/-! ## lemmas: one match -/

theorem isMime_iff {m : Str} (hne : m ≠ []) : isMime m = true ↔ ∃ a b, a ≠ [] ∧ b ≠ [] ∧ m = a ++ '/' :: b := by
  constructor
  · intro h
    unfold isMime at h
    rw [List.contains_iff_mem] at h
    obtain ⟨x, y, hxy⟩ := List.append_of_mem h
    obtain ⟨c, t, rfl⟩ := List.exists_cons_of_ne_nil hne
    rw [List.tail_cons] at hxy
    have ht : t ≠ [] := by
      rintro rfl
      cases x <;> cases hxy
    refine ⟨c :: x, y ++ [t.getLast ht], by simp, by simp, ?_⟩
    conv => lhs; rw [← List.dropLast_concat_getLast ht, hxy]
    simp
  · rintro ⟨a, b, ha, hb, rfl⟩
    have := isMime_mediaType (m := a ++ '/' :: b) (.inr ⟨a, b, ha, hb, rfl⟩)
    rcases this with h | h
    · cases a <;> cases h
    · exact h

theorem parse_url (m : Str) (ps : List Str) (payload : Str) (hmt : MediaType m) (hm : Head m) (hp : ∀ p ∈ ps, Head p) :
    parseUrl (dataUrl m ps payload) = some (m, ps, payload) := by
  have hch : ∀ c ∈ header m ps, c = ';' ∨ (c ≠ ';' ∧ c ≠ ',' ∧ c ≠ '"' ∧ c ≠ '\'') := by
    intro c hc
    rcases List.mem_append.mp hc with hc | hc
    · exact .inr (hm c hc)
    · obtain ⟨p, hp1, hp2⟩ := List.mem_flatMap.mp hc
      rcases List.mem_cons.mp hp2 with rfl | hc
      · exact .inl rfl
      · exact .inr (hp p hp1 c hc)
  have hcomma : ∀ c ∈ header m ps, (c != ',') = true := by
    intro c hc
    rcases hch c hc with rfl | h
    · decide
    · simpa using h.2.1
  have hdrop : (dataUrl m ps payload).drop 5 = header m ps ++ ',' :: payload := rfl
  have hpre : startsWith "data:".toList (dataUrl m ps payload) = true := rfl
  have htake : (header m ps ++ ',' :: payload).takeWhile (fun c => c != ',') = header m ps :=
    (takeWhile_stop hcomma (by intro c hc; cases hc; decide)).1
  have hq : (header m ps).any isQuote = false := by
    rw [List.any_eq_false]
    intro c hc hq
    simp only [isQuote, Bool.or_eq_true, beq_iff_eq] at hq
    rcases hch c hc with rfl | h
    · rcases hq with hq | hq <;> exact absurd hq (by decide)
    · rcases hq with rfl | rfl
      · exact h.2.2.2 rfl
      · exact h.2.2.1 rfl
  have hsplit : split ';' (header m ps) = m :: ps := by
    rw [header_join, split_join _ _ (by simp)]
    intro p hp' hc
    rcases List.mem_cons.mp hp' with rfl | hp'
    · exact (hm _ hc).1 rfl
    · exact (hp p hp' _ hc).1 rfl
  unfold parseUrl
  rw [hpre, hdrop, htake, hq, hsplit]
  simp only [if_true, Bool.not_false, Bool.and_true]
  rw [if_pos (by simp), if_pos (isMime_mediaType hmt)]
  have : header m ps ++ ',' :: payload = (header m ps ++ [',']) ++ payload := by simp
  rw [this, List.drop_left' (by simp)]

theorem cut {x : Char} {s : Str} (h : x ∈ s) :
    s = s.takeWhile (fun c => c != x) ++ x :: s.drop ((s.takeWhile (fun c => c != x)).length + 1) ∧ x ∉ s.takeWhile (fun c => c != x) := by
  induction s with
  | nil => cases h
  | cons c s ih =>
    by_cases hc : c = x
    · subst hc
      simp
    · obtain ⟨h1, h2⟩ := ih (by
        rcases List.mem_cons.mp h with rfl | h
        · exact absurd rfl hc
        · exact h)
      have hb : (c != x) = true := by simpa using hc
      have ht : (c :: s).takeWhile (fun c => c != x) = c :: s.takeWhile (fun c => c != x) := by simp [hb]
      rw [ht]
      refine ⟨?_, ?_⟩
      · simp only [List.cons_append, List.length_cons, List.drop_succ_cons, List.cons.injEq, true_and]
        exact h1
      · intro hm
        rcases List.mem_cons.mp hm with rfl | hm
        · exact hc rfl
        · exact h2 hm

theorem parse_iff (s m : Str) (ps : List Str) (rest : Str) : parseUrl s = some (m, ps, rest) ↔
    s = dataUrl m ps rest ∧ MediaType m ∧ Head m ∧ ∀ p ∈ ps, Head p := by
  constructor
  · intro h
    unfold parseUrl at h
    split at h
    · next hp =>
      obtain ⟨t, rfl⟩ := (Verif.Rar.startsWith_iff _ _).mp hp
      rw [List.drop_left' (by rfl)] at h
      split at h
      · next hc =>
        rw [Bool.and_eq_true, List.contains_iff_mem] at hc
        obtain ⟨hc, hq⟩ := hc
        obtain ⟨h1, h2⟩ := cut hc
        generalize hk : t.takeWhile (fun c => c != ',') = hd at h h1 h2 hq
        cases hs : split ';' hd with
        | nil => rw [hs] at h; cases h
        | cons m' ps' =>
          rw [hs] at h
          simp only at h
          split at h
          · next hmm =>
            cases h
            have hj : join ';' (m :: ps) = hd := by rw [← hs, join_split]
            have hnot := not_mem_of_mem_split ';' hd
            rw [hs] at hnot
            have hmem : ∀ p ∈ m :: ps, ∀ c ∈ p, c ∈ hd := by
              intro p hp' c hc'
              rw [← hj, ← header_join]
              unfold header
              rcases List.mem_cons.mp hp' with rfl | hp'
              · exact List.mem_append_left _ hc'
              · exact List.mem_append_right _ (List.mem_flatMap.mpr ⟨p, hp', List.mem_cons_of_mem _ hc'⟩)
            have hhead : ∀ p ∈ m :: ps, Head p := by
              intro p hp' c hc'
              have hin := hmem p hp' c hc'
              simp only [Bool.not_eq_true', List.any_eq_false] at hq
              have := hq c hin
              simp only [isQuote, Bool.or_eq_true, beq_iff_eq, not_or] at this
              refine ⟨?_, ?_, this.2, this.1⟩
              · rintro rfl
                exact hnot p hp' hc'
              · rintro rfl
                exact h2 hin
            refine ⟨?_, ?_, hhead m (by simp), fun p hp' => hhead p (by simp [hp'])⟩
            · have he : dataUrl m ps (t.drop (hd.length + 1)) = "data:".toList ++ (hd ++ ',' :: t.drop (hd.length + 1)) := by
                rw [← hj, ← header_join]
                unfold dataUrl header
                rw [List.append_assoc]
              rw [he, ← h1]
            · rcases hmm with hmm | hmm
              · exact .inl hmm
              · by_cases hne : m = []
                · exact .inl hne
                · exact .inr ((isMime_iff hne).mp hmm)
          · cases h
      · cases h
    · cases h
  · rintro ⟨rfl, h1, h2, h3⟩
    exact parse_url m ps rest h1 h2 h3

theorem body_iff (close : Char) (s v : Str) : body close s = some v ↔ IsUrl close v ∧ ∃ a, s = v ++ close :: a := by
  constructor
  · intro h
    unfold body at h
    cases hp : parseUrl s with
    | none => rw [hp] at h; cases h
    | some x =>
      obtain ⟨m, ps, rest⟩ := x
      rw [hp] at h
      simp only at h
      obtain ⟨hs, h1, h2, h3⟩ := (parse_iff s m ps rest).mp hp
      split at h
      · cases h
      · next hne =>
        split at h
        · next hc =>
          rw [List.contains_iff_mem] at hc
          obtain ⟨h4, h5⟩ := cut hc
          generalize rest.takeWhile (fun c => c != close) = w at h h4 h5 hne
          generalize hr : rest.drop (w.length + 1) = a at h4
          have hd : s = dataUrl m ps w ++ close :: a := by
            rw [hs]
            conv => lhs; rw [h4]
            unfold dataUrl
            simp
          have hl : s.length - rest.length + w.length = (dataUrl m ps w).length := by
            have e1 : s.length = (dataUrl m ps rest).length := by rw [← hs]
            unfold dataUrl at e1 ⊢
            simp only [List.length_append, List.length_cons] at e1 ⊢
            omega
          rw [hl, hd, List.take_left' rfl] at h
          cases h
          exact ⟨⟨m, ps, w, h1, h2, h3, rfl, hne, h5⟩, a, hd⟩
        · cases h
  · rintro ⟨⟨m, ps, w, h1, h2, h3, rfl, hne, h5⟩, a, rfl⟩
    have hd : dataUrl m ps w ++ close :: a = dataUrl m ps (w ++ close :: a) := by
      unfold dataUrl
      simp
    have ht := (takeWhile_stop (p := fun c => c != close) (a := w) (b := close :: a) (by
      intro c hc
      simp only [bne_iff_ne]
      rintro rfl
      exact h5 hc) (by
      intro c hc
      cases hc
      simp)).1
    have hp := parse_url m ps (w ++ close :: a) h1 h2 h3
    unfold body
    rw [hd, hp]
    simp only
    rw [ht, if_neg hne, if_pos (by simp)]
    have hl : (dataUrl m ps (w ++ close :: a)).length - (w ++ close :: a).length + w.length = (dataUrl m ps w).length := by
      unfold dataUrl
      simp only [List.length_append, List.length_cons]
      omega
    rw [hl, ← hd, List.take_left' rfl]

theorem matchUrl_iff (s v : Str) : matchUrl s = some v ↔ IsUrl ')' v ∧ ∃ a, s = "url(".toList ++ (v ++ ')' :: a) := by
  unfold matchUrl
  split
  · next h =>
    obtain ⟨t, rfl⟩ := (Verif.Rar.startsWith_iff _ _).mp h
    rw [List.drop_left' (by rfl), body_iff]
    refine and_congr_right fun _ => exists_congr fun a => ?_
    rw [List.append_cancel_left_eq]
  · next h =>
    constructor
    · intro h; cases h
    · rintro ⟨_, a, rfl⟩
      exact absurd ((Verif.Rar.startsWith_iff _ _).mpr ⟨_, rfl⟩) h

theorem matchCss_iff (s : Str) (x : Found) : matchCss s = some x ↔
    x.lead = (opening x.addr).length ∧ (∀ u, x.addr = some u → u ≠ [] ∧ '*' ∉ u) ∧ IsUrl ')' x.value ∧
      ∃ a, s = opening x.addr ++ (x.value ++ ')' :: a) := by
  constructor
  · intro h
    unfold matchCss at h
    split at h
    · next hp =>
      obtain ⟨t, rfl⟩ := (Verif.Rar.startsWith_iff _ _).mp hp
      rw [List.drop_left' (by rfl)] at h
      split at h
      · cases h
      · next hne =>
        split at h
        · next hc =>
          have ht := List.takeWhile_append_dropWhile (p := fun c => c != '*') (l := t)
          have hn : '*' ∉ t.takeWhile (fun c => c != '*') := by
            intro hm
            have := List.all_eq_true.mp (List.all_takeWhile (p := fun c => c != '*') (l := t)) _ hm
            simp at this
          generalize t.takeWhile (fun c => c != '*') = u at h ht hne hn
          obtain ⟨w, hw⟩ := (Verif.Rar.startsWith_iff _ _).mp hc
          rw [← hw] at ht h
          rw [List.drop_left' (by rfl)] at h
          obtain ⟨v, hv, rfl⟩ := Option.map_eq_some_iff.mp h
          obtain ⟨h1, a, h2⟩ := (matchUrl_iff _ _).mp hv
          refine ⟨?_, ?_, h1, a, ?_⟩
          · unfold opening
            simp only [List.length_append]
            have e1 : "/*savepage-url=".toList.length = 15 := rfl
            have e2 : "*/url(".toList.length = 6 := rfl
            omega
          · intro u' hu'
            cases hu'
            exact ⟨hne, hn⟩
          · unfold opening
            rw [← ht, h2]
            simp only [List.append_assoc]
            rfl
        · cases h
    · obtain ⟨v, hv, rfl⟩ := Option.map_eq_some_iff.mp h
      obtain ⟨h1, a, h2⟩ := (matchUrl_iff _ _).mp hv
      refine ⟨rfl, ?_, h1, a, h2⟩
      intro u hu
      cases hu
  · obtain ⟨addr, lead, v⟩ := x
    rintro ⟨hl, ha, hu, a, rfl⟩
    simp only at hl ha hu ⊢
    subst hl
    cases addr with
    | none =>
      have h1 : startsWith "/*savepage-url=".toList (opening none ++ (v ++ ')' :: a)) = false := rfl
      unfold matchCss
      rw [h1, if_neg (by simp), (matchUrl_iff (opening none ++ (v ++ ')' :: a)) v).mpr ⟨hu, a, rfl⟩]
      rfl
    | some u =>
      obtain ⟨hne, hn⟩ := ha u rfl
      have hs : opening (some u) ++ (v ++ ')' :: a) = "/*savepage-url=".toList ++ (u ++ ("*/".toList ++ ("url(".toList ++ (v ++ ')' :: a)))) := by
        unfold opening
        simp only [List.append_assoc]
        rfl
      have ht := takeWhile_stop (p := fun c => c != '*') (a := u) (b := "*/".toList ++ ("url(".toList ++ (v ++ ')' :: a))) (by
        intro c hc
        simp only [bne_iff_ne]
        rintro rfl
        exact hn hc) (by
        intro c hc
        cases hc
        rfl)
      unfold matchCss
      rw [hs, if_pos ((Verif.Rar.startsWith_iff _ _).mpr ⟨_, rfl⟩), List.drop_left' (by rfl), ht.1, ht.2, if_neg hne,
        if_pos ((Verif.Rar.startsWith_iff _ _).mpr ⟨_, rfl⟩), List.drop_left' (by rfl), (matchUrl_iff _ v).mpr ⟨hu, a, rfl⟩]
      have e : (opening (some u)).length = 21 + u.length := by
        unfold opening
        simp only [List.length_append]
        have e1 : "/*savepage-url=".toList.length = 15 := rfl
        have e2 : "*/url(".toList.length = 6 := rfl
        omega
      rw [e]
      rfl

theorem matchQuoted_iff (q : Char) (s : Str) (x : Found) : matchQuoted q s = some x ↔
    x.lead = 1 ∧ x.addr = none ∧ IsUrl q x.value ∧ ∃ a, s = q :: (x.value ++ q :: a) := by
  cases s with
  | nil =>
    constructor
    · intro h; cases h
    · rintro ⟨_, _, _, a, h⟩; cases h
  | cons c t =>
    constructor
    · intro h
      simp only [matchQuoted] at h
      split at h
      · next hc =>
        subst hc
        obtain ⟨v, hv, rfl⟩ := Option.map_eq_some_iff.mp h
        obtain ⟨h1, a, h2⟩ := (body_iff _ _ _).mp hv
        exact ⟨rfl, rfl, h1, a, by rw [h2]⟩
      · cases h
    · obtain ⟨addr, lead, v⟩ := x
      rintro ⟨hl, ha, hu, a, h⟩
      simp only at hl ha hu h
      subst hl ha
      cases h
      simp only [matchQuoted]
      rw [if_true, (body_iff q _ v).mpr ⟨hu, a, rfl⟩]
      rfl

/-! ## lemmas: all matches -/

/-- Places and matches in a text: the pattern matches there. -/
def At (f : Str → Option Found) (data : Str) (p : Nat) (x : Found) : Prop := f (data.drop p) = some x ∧ p < data.length

theorem finditer_eq (f : Str → Option Found) (p : Nat) (c : Char) (t : Str) : finditer f p (c :: t) =
    match f (c :: t) with
    | none => finditer f (p + 1) t
    | some x => (p, x) :: finditer f (p + x.len) (t.drop (x.lead + x.value.length)) := by
  conv => lhs; rw [finditer.eq_def]

/-- Everything that is reported is a match, the matches do not overlap, and every match begins before the end of a reported one that begins no later. -/
theorem finditer_spec (f : Str → Option Found) (n : Nat) : ∀ (p : Nat) (s : Str), s.length ≤ n →
    (∀ m ∈ finditer f p s, p ≤ m.1 ∧ At f s (m.1 - p) m.2) ∧
    (finditer f p s).Pairwise (fun m m' => m.1 + m.2.len ≤ m'.1) ∧
    ∀ k x, At f s k x → ∃ m ∈ finditer f p s, m.1 ≤ p + k ∧ p + k < m.1 + m.2.len := by
  induction n with
  | zero =>
    intro p s hs
    cases s with
    | cons c t => simp at hs
    | nil =>
      rw [finditer.eq_def]
      refine ⟨by simp, by simp, ?_⟩
      rintro k x ⟨_, hk⟩
      simp at hk
  | succ n ih =>
    intro p s hs
    cases s with
    | nil =>
      rw [finditer.eq_def]
      refine ⟨by simp, by simp, ?_⟩
      rintro k x ⟨_, hk⟩
      simp at hk
    | cons c t =>
      rw [finditer_eq]
      simp only [List.length_cons] at hs
      cases hf : f (c :: t) with
      | none =>
        obtain ⟨h1, h2, h3⟩ := ih (p + 1) t (by omega)
        refine ⟨?_, h2, ?_⟩
        · intro m hm
          obtain ⟨h4, h5, h6⟩ := h1 m hm
          refine ⟨by omega, ?_, by simp; omega⟩
          have : m.1 - p = (m.1 - (p + 1)) + 1 := by omega
          rw [this, List.drop_succ_cons]
          exact h5
        · rintro k x ⟨h4, h5⟩
          cases k with
          | zero => rw [List.drop_zero, hf] at h4; cases h4
          | succ k =>
            rw [List.drop_succ_cons] at h4
            obtain ⟨m, hm, h6, h7⟩ := h3 k x ⟨h4, by simp at h5; omega⟩
            exact ⟨m, hm, by omega, by omega⟩
      | some x =>
        have hd : t.drop (x.lead + x.value.length) = (c :: t).drop x.len := by
          unfold Found.len
          rw [List.drop_succ_cons]
        simp only
        rw [hd]
        obtain ⟨h1, h2, h3⟩ := ih (p + x.len) ((c :: t).drop x.len) (by
          rw [← hd, List.length_drop]
          omega)
        have hx : 0 < x.len := by unfold Found.len; omega
        refine ⟨?_, ?_, ?_⟩
        · intro m hm
          rcases List.mem_cons.mp hm with rfl | hm
          · simp only [Nat.sub_self]
            exact ⟨Nat.le_refl _, by rw [List.drop_zero]; exact hf, by simp⟩
          · obtain ⟨h4, h5, h6⟩ := h1 m hm
            rw [List.drop_drop] at h5
            rw [List.length_drop] at h6
            have : x.len + (m.1 - (p + x.len)) = m.1 - p := by omega
            rw [this] at h5
            exact ⟨by omega, h5, by omega⟩
        · rw [List.pairwise_cons]
          refine ⟨?_, h2⟩
          intro m hm
          exact (h1 m hm).1
        · rintro k y ⟨h4, h5⟩
          by_cases hk : k < x.len
          · exact ⟨(p, x), by simp, by simp, by simp; omega⟩
          · obtain ⟨m, hm, h6, h7⟩ := h3 (k - x.len) y ⟨by
              rw [List.drop_drop]
              have : x.len + (k - x.len) = k := by omega
              rw [this]
              exact h4, by rw [List.length_drop]; omega⟩
            exact ⟨m, by simp [hm], by omega, by omega⟩

theorem mem_at {f : Str → Option Found} {data : Str} {m : Nat × Found} (h : m ∈ finditer f 0 data) : At f data m.1 m.2 :=
  ((finditer_spec f data.length 0 data (Nat.le_refl _)).1 m h).2

/-- A match is reported if no earlier match overlaps it. -/
theorem at_mem {f : Str → Option Found} {data : Str} {p : Nat} {x : Found} (h : At f data p x)
    (hf : ∀ q y, q < p → At f data q y → q + y.len ≤ p) : (p, x) ∈ finditer f 0 data := by
  obtain ⟨m, hm, h1, h2⟩ := (finditer_spec f data.length 0 data (Nat.le_refl _)).2.2 p x h
  have ha := mem_at hm
  by_cases hlt : m.1 < p
  · have := hf m.1 m.2 hlt ha
    omega
  · have he : m.1 = p := by omega
    have hx : m.2 = x := by
      have h3 := ha.1
      rw [he, h.1] at h3
      exact (Option.some.inj h3).symm
    rw [← he, ← hx]
    exact hm

theorem drop_iff (data : Str) (p : Nat) (w : Str) (hw : w ≠ []) : (data.drop p = w ∧ p < data.length) ↔ ∃ b, data = b ++ w ∧ b.length = p := by
  constructor
  · rintro ⟨h1, h2⟩
    refine ⟨data.take p, ?_, by rw [List.length_take]; omega⟩
    rw [← h1, List.take_append_drop]
  · rintro ⟨b, rfl, rfl⟩
    refine ⟨List.drop_left' rfl, ?_⟩
    have := List.length_pos_iff.mpr hw
    rw [List.length_append]
    omega

theorem at_css (data : Str) (p : Nat) (x : Found) : At matchCss data p x ↔ x.lead = (opening x.addr).length ∧ CssAt data p x.addr x.value := by
  unfold At
  rw [matchCss_iff]
  constructor
  · rintro ⟨⟨h1, h2, h3, a, h4⟩, h5⟩
    obtain ⟨b, hb1, hb2⟩ := (drop_iff data p _ (by simp)).mp ⟨h4, h5⟩
    exact ⟨h1, h2, h3, b, a, hb1, hb2⟩
  · rintro ⟨h1, h2, h3, b, a, h4, h5⟩
    obtain ⟨h6, h7⟩ := (drop_iff data p _ (by simp)).mpr ⟨b, h4, h5⟩
    exact ⟨⟨h1, h2, h3, a, h6⟩, h7⟩

theorem at_quoted (q : Char) (data : Str) (p : Nat) (x : Found) :
    At (matchQuoted q) data p x ↔ x.lead = 1 ∧ x.addr = none ∧ QuotedAt q data p x.value := by
  unfold At
  rw [matchQuoted_iff]
  constructor
  · rintro ⟨⟨h1, h2, h3, a, h4⟩, h5⟩
    obtain ⟨b, hb1, hb2⟩ := (drop_iff data p _ (by simp)).mp ⟨h4, h5⟩
    exact ⟨h1, h2, h3, b, a, hb1, hb2⟩
  · rintro ⟨h1, h2, h3, b, a, h4, h5⟩
    obtain ⟨h6, h7⟩ := (drop_iff data p _ (by simp)).mpr ⟨b, h4, h5⟩
    exact ⟨⟨h1, h2, h3, a, h6⟩, h7⟩

theorem css_before {data : Str} {p : Nat} {addr : Option Str} {v : Str} (h : CssAt data p addr v) :
    (data.take (p + (opening addr).length)).getLast? = some '(' := by
  obtain ⟨_, _, b, a, rfl, rfl⟩ := h
  rw [← List.append_assoc, List.take_left' (by simp)]
  have : ∃ w, opening addr = w ++ ['('] := by
    cases addr with
    | none => exact ⟨"url".toList, rfl⟩
    | some u =>
      refine ⟨"/*savepage-url=".toList ++ u ++ "*/url".toList, ?_⟩
      unfold opening
      rw [List.append_assoc _ "*/url".toList]
      rfl
  obtain ⟨w, hw⟩ := this
  rw [hw, ← List.append_assoc]
  simp

theorem quoted_before {q : Char} {data : Str} {p : Nat} {v : Str} (h : QuotedAt q data p v) : (data.take (p + 1)).getLast? = some q := by
  obtain ⟨_, b, a, rfl, rfl⟩ := h
  have : b ++ q :: (v ++ q :: a) = (b ++ [q]) ++ (v ++ q :: a) := by simp
  rw [this, List.take_left' (by simp)]
  simp

theorem starts_nodup (f : Str → Option Found) (pos : Nat) (data : Str) :
    (((finditer f 0 data).map (candidate pos)).map (fun x => x.2.start)).Nodup := by
  rw [List.map_map]
  unfold List.Nodup
  rw [List.pairwise_map]
  refine (finditer_spec f data.length 0 data (Nat.le_refl _)).2.1.imp ?_
  intro m m' h
  unfold Found.len at h
  simp only [Function.comp, candidate]
  omega

theorem mem_handle {pos : Nat} {data : Str} {x : Str × Candidate} (h : x ∈ handleData pos data) :
    (∃ m, m ∈ finditer matchCss 0 data ∧ candidate pos m = x) ∨ ∃ q m, (q = '\'' ∨ q = '"') ∧ m ∈ finditer (matchQuoted q) 0 data ∧ candidate pos m = x := by
  obtain ⟨m, hm, he⟩ := List.mem_map.mp h
  rcases List.mem_append.mp hm with hm | hm
  · exact .inl ⟨m, hm, he⟩
  · rcases List.mem_append.mp hm with hm | hm
    · exact .inr ⟨_, m, .inl rfl, hm, he⟩
    · exact .inr ⟨_, m, .inr rfl, hm, he⟩

theorem newlines_append (base : Nat) (x y : Str) : newlines base (x ++ y) = newlines base x ++ newlines (base + x.length) y := by
  induction x generalizing base with
  | nil => rfl
  | cons c x ih =>
    simp only [List.cons_append, newlines, List.length_cons]
    have : base + (x.length + 1) = base + 1 + x.length := by omega
    rw [this]
    split
    · rw [ih, List.cons_append]
    · rw [ih]

theorem newlines_length (base : Nat) (x : Str) : (newlines base x).length = x.count '\n' := by
  induction x generalizing base with
  | nil => rfl
  | cons c x ih =>
    simp only [newlines]
    split
    · next h =>
      subst h
      rw [List.length_cons, ih, List.count_cons_self]
    · next h =>
      rw [ih, List.count_cons_of_ne h]

theorem lineOffsets_eq (base : Nat) (pieces : List Str) : lineOffsets base pieces = newlines base pieces.flatten := by
  induction pieces generalizing base with
  | nil => rfl
  | cons d ds ih =>
    simp only [lineOffsets, List.flatten_cons]
    rw [newlines_append, ih]

theorem mem_insertSorted (n m : Nat) (l : List Nat) : m ∈ insertSorted n l ↔ m = n ∨ m ∈ l := by
  induction l with
  | nil => simp [insertSorted]
  | cons k l ih =>
    simp only [insertSorted]
    split
    · simp
    · rw [List.mem_cons, ih, List.mem_cons]
      constructor
      · rintro (h | h | h)
        · exact .inr (.inl h)
        · exact .inl h
        · exact .inr (.inr h)
      · rintro (h | h | h)
        · exact .inr (.inl h)
        · exact .inl h
        · exact .inr (.inr h)

theorem mem_sorted (m : Nat) (l : List Nat) : m ∈ sorted l ↔ m ∈ l := by
  induction l with
  | nil => simp [sorted]
  | cons k l ih => rw [sorted, mem_insertSorted, ih, List.mem_cons]

theorem pairwise_insertSorted (n : Nat) (l : List Nat) (h : l.Pairwise (· ≤ ·)) : (insertSorted n l).Pairwise (· ≤ ·) := by
  induction l with
  | nil => simp [insertSorted]
  | cons k l ih =>
    rw [List.pairwise_cons] at h
    simp only [insertSorted]
    split
    · next hk =>
      rw [List.pairwise_cons, List.pairwise_cons]
      refine ⟨?_, h⟩
      intro m hm
      rcases List.mem_cons.mp hm with rfl | hm
      · exact hk
      · have := h.1 m hm
        omega
    · next hk =>
      rw [List.pairwise_cons]
      refine ⟨?_, ih h.2⟩
      intro m hm
      rcases (mem_insertSorted _ _ _).mp hm with rfl | hm
      · omega
      · exact h.1 m hm

theorem pairwise_sorted (l : List Nat) : (sorted l).Pairwise (· ≤ ·) := by
  induction l with
  | nil => exact List.Pairwise.nil
  | cons k l ih => exact pairwise_insertSorted k _ ih

theorem fill_ok (text : Str) (ns : List Nat) (done : Nat) (d : Dict Nat Nat) (hs : ns.Pairwise (· ≤ ·)) (hd : ∀ n ∈ ns, done ≤ n)
    (hl : ∀ n ∈ ns, n ≤ text.length) : ∃ d', fill text ns done d = .ok d' ∧
      ∀ k, d'.get? k = if k ∈ ns then some (textBytes (text.take k)) else d.get? k := by
  induction ns generalizing done d with
  | nil => exact ⟨d, rfl, fun k => by simp⟩
  | cons n ns ih =>
    rw [List.pairwise_cons] at hs
    have h1 := hd n (by simp)
    have h2 := hl n (by simp)
    obtain ⟨d', h3, h4⟩ := ih n (d.set n (textBytes (text.take n))) hs.2 hs.1 (fun m hm => hl m (by simp [hm]))
    refine ⟨d', ?_, ?_⟩
    · simp only [fill]
      rw [if_neg (by omega), if_neg (by rw [List.length_take, List.length_drop]; omega)]
      exact h3
    · intro k
      rw [h4]
      by_cases hk : k ∈ ns
      · rw [if_pos hk, if_pos (by simp [hk])]
      · rw [if_neg hk, Dict.get?_set]
        by_cases hn : n = k
        · subst hn
          rw [if_pos rfl, if_pos (by simp)]
        · rw [if_neg hn, if_neg (by
            intro hm
            rcases List.mem_cons.mp hm with rfl | hm
            · exact hn rfl
            · exact hk hm)]

theorem fill_beyond (text : Str) (ns : List Nat) (done : Nat) (d : Dict Nat Nat) (hd : done ≤ text.length)
    (hl : ∃ n ∈ ns, text.length < n) : fill text ns done d = .error .assertionError := by
  induction ns generalizing done d with
  | nil => obtain ⟨n, hn, _⟩ := hl; cases hn
  | cons n ns ih =>
    simp only [fill]
    split
    · rfl
    · split
      · rfl
      · next h1 h2 =>
        rw [List.length_take, List.length_drop] at h2
        refine ih n _ (by omega) ?_
        obtain ⟨m, hm, hm2⟩ := hl
        rcases List.mem_cons.mp hm with rfl | hm
        · omega
        · exact ⟨m, hm, hm2⟩

theorem mem_of_getElem? {x r : Str} {i : Nat} {c : Char} (h : (x ++ r)[i]? = some c) (hi : i < x.length) : c ∈ x := by
  rw [List.getElem?_append_left hi] at h
  exact List.mem_of_getElem? h

/-! ## theorems -/

/-- **C217**: everything that is found is a data URL in `url(…)` or between quotes. Its address is that of the comment before it, and its place is exactly
that of the data URL. -/
theorem C217_sound (pos : Nat) (data : Str) (url : Str) (c : Candidate) (h : (url, c) ∈ handleData pos data) :
    ∃ p v, c.next = some (c.start + v.length) ∧ c.attr = [] ∧
      ((∃ addr, CssAt data p addr v ∧ url = addr.getD [] ∧ c.start = pos + p + (opening addr).length) ∨
       (∃ q, (q = '\'' ∨ q = '"') ∧ QuotedAt q data p v ∧ url = [] ∧ c.start = pos + p + 1)) := by
  rcases mem_handle h with ⟨m, hm, he⟩ | ⟨q, m, hq, hm, he⟩
  · obtain ⟨h1, h2⟩ := (at_css _ _ _).mp (mem_at hm)
    unfold candidate at he
    cases he
    exact ⟨m.1, m.2.value, rfl, rfl, .inl ⟨m.2.addr, h2, rfl, by rw [h1]⟩⟩
  · obtain ⟨h1, h2, h3⟩ := (at_quoted _ _ _ _).mp (mem_at hm)
    unfold candidate at he
    cases he
    exact ⟨m.1, m.2.value, rfl, rfl, .inr ⟨q, hq, h3, by rw [h2]; rfl, by rw [h1]⟩⟩

/-- **C217**: what is found is a data URL that is written in the page at the place, which is what C216 is about. -/
theorem C217_written (before data after : Str) (url : Str) (c : Candidate) (h : (url, c) ∈ handleData before.length data) :
    ∃ v, (IsUrl ')' v ∨ IsUrl '\'' v ∨ IsUrl '"' v) ∧ Written (before ++ (data ++ after)) c c.start v := by
  have hne : ∀ q v, IsUrl q v → v ≠ [] := by
    rintro q v ⟨m, ps, w, _, _, _, rfl, _⟩
    unfold dataUrl
    simp
  obtain ⟨p, v, h1, h2, h3⟩ := C217_sound _ _ _ _ h
  refine ⟨v, ?_, ?_⟩
  · rcases h3 with ⟨addr, h3, _⟩ | ⟨q, rfl | rfl, h3, _⟩
    · exact .inl h3.url
    · exact .inr (.inl h3.url)
    · exact .inr (.inr h3.url)
  · rcases h3 with ⟨addr, ⟨_, h4, b, a, rfl, rfl⟩, _, h5⟩ | ⟨q, _, ⟨h4, b, a, rfl, rfl⟩, _, h5⟩
    · have hl : c.start = (before ++ (b ++ opening addr)).length := by
        rw [h5, List.length_append, List.length_append]
        omega
      exact .style (before ++ (b ++ opening addr)) (')' :: a ++ after) (by simp) hl (by rw [h1, hl]) h2 (hne _ _ h4) hl
    · have hl : c.start = (before ++ (b ++ [q])).length := by
        rw [h5, List.length_append, List.length_append]
        simp
        omega
      exact .style (before ++ (b ++ [q])) (q :: a ++ after) (by simp) hl (by rw [h1, hl]) h2 (hne _ _ h4) hl

/-- **C217**: no data URL is found twice. -/
theorem C217_once (pos : Nat) (data : Str) : ((handleData pos data).map (fun x => x.2.start)).Nodup := by
  have hq : ∀ q m, m ∈ finditer (matchQuoted q) 0 data → (data.take (m.1 + m.2.lead)).getLast? = some q := by
    intro q m hm
    obtain ⟨h1, h2, h3⟩ := (at_quoted _ _ _ _).mp (mem_at hm)
    rw [h1]
    exact quoted_before h3
  have hc : ∀ m, m ∈ finditer matchCss 0 data → (data.take (m.1 + m.2.lead)).getLast? = some '(' := by
    intro m hm
    obtain ⟨h1, h2⟩ := (at_css _ _ _).mp (mem_at hm)
    rw [h1]
    exact css_before h2
  have hne : ∀ (m m' : Nat × Found) (a b : Char), a ≠ b → (data.take (m.1 + m.2.lead)).getLast? = some a →
      (data.take (m'.1 + m'.2.lead)).getLast? = some b → (candidate pos m).2.start ≠ (candidate pos m').2.start := by
    intro m m' a b hab h1 h2 h3
    simp only [candidate] at h3
    have : m.1 + m.2.lead = m'.1 + m'.2.lead := by omega
    rw [this, h2] at h1
    cases h1
    exact hab rfl
  unfold handleData
  rw [List.map_append, List.map_append, List.map_append, List.map_append, List.nodup_append, List.nodup_append]
  refine ⟨starts_nodup _ _ _, ⟨starts_nodup _ _ _, starts_nodup _ _ _, ?_⟩, ?_⟩
  · intro a ha b hb
    simp only [List.mem_map] at ha hb
    obtain ⟨_, ⟨m, hm, rfl⟩, rfl⟩ := ha
    obtain ⟨_, ⟨m', hm', rfl⟩, rfl⟩ := hb
    exact hne m m' _ _ (by decide) (hq _ _ hm) (hq _ _ hm')
  · intro a ha b hb
    simp only [List.mem_append, List.mem_map] at ha hb
    obtain ⟨_, ⟨m, hm, rfl⟩, rfl⟩ := ha
    rcases hb with ⟨_, ⟨m', hm', rfl⟩, rfl⟩ | ⟨_, ⟨m', hm', rfl⟩, rfl⟩
    · exact hne m m' _ _ (by decide) (hc _ hm) (hq _ _ hm')
    · exact hne m m' _ _ (by decide) (hc _ hm) (hq _ _ hm')

/-- **C217**: a data URL in a style sheet is found, with its address, if no other one that begins before it reaches into it. Missing from the claim: data
URLs with white space after the parenthesis (C217_violated). -/
theorem C217_css_partial (pos : Nat) (data : Str) (p : Nat) (addr : Option Str) (v : Str) (h : CssAt data p addr v)
    (hf : ∀ q addr' v', q < p → CssAt data q addr' v' → q + ((opening addr').length + v'.length + 1) ≤ p) :
    (addr.getD [], ⟨pos + p + (opening addr).length, some (pos + p + (opening addr).length + v.length), []⟩) ∈ handleData pos data := by
  have hm : (p, (⟨addr, (opening addr).length, v⟩ : Found)) ∈ finditer matchCss 0 data := by
    refine at_mem ((at_css _ _ _).mpr ⟨rfl, h⟩) ?_
    intro q y hq hy
    obtain ⟨h1, h2⟩ := (at_css _ _ _).mp hy
    have := hf q y.addr y.value hq h2
    unfold Found.len
    rw [h1]
    exact this
  exact List.mem_map.mpr ⟨_, List.mem_append_left _ hm, rfl⟩

/-- **C217**: a data URL between quotes is found if no other one that begins before it, between the same quotes, reaches into it. -/
theorem C217_quoted (pos : Nat) (data : Str) (p : Nat) (q : Char) (v : Str) (hq : q = '\'' ∨ q = '"') (h : QuotedAt q data p v)
    (hf : ∀ p' v', p' < p → QuotedAt q data p' v' → p' + (v'.length + 2) ≤ p) :
    ([], ⟨pos + p + 1, some (pos + p + 1 + v.length), []⟩) ∈ handleData pos data := by
  have hm : (p, (⟨none, 1, v⟩ : Found)) ∈ finditer (matchQuoted q) 0 data := by
    refine at_mem ((at_quoted _ _ _ _).mpr ⟨rfl, rfl, h⟩) ?_
    intro k y hk hy
    obtain ⟨h1, h2, h3⟩ := (at_quoted _ _ _ _).mp hy
    have := hf k y.value hk h3
    unfold Found.len
    rw [h1]
    omega
  refine List.mem_map.mpr ⟨(p, ⟨none, 1, v⟩), List.mem_append_right _ ?_, rfl⟩
  rcases hq with rfl | rfl
  · exact List.mem_append_left _ hm
  · exact List.mem_append_right _ hm

/-- **C217**: the claim for data URLs without white space around them. -/
theorem C217_plain_partial (before v after : Str) (hv : IsUrl ')' v) (hb : '(' ∉ before) (hs : '/' ∉ before) :
    ([], ⟨before.length + 4, some (before.length + 4 + v.length), []⟩) ∈ handleData 0 (before ++ ("url(".toList ++ (v ++ ')' :: after))) := by
  have h := C217_css_partial 0 (before ++ ("url(".toList ++ (v ++ ')' :: after))) before.length none v
    ⟨fun u hu => (by cases hu), hv, before, after, rfl, rfl⟩ (by
      rintro q addr' v' hq ⟨_, _, b, a, he, rfl⟩
      exfalso
      cases addr' with
      | none =>
        have h1 : (b ++ (opening none ++ (v' ++ ')' :: a)))[b.length + 3]? = some '(' := by
          rw [List.getElem?_append_right (by omega), Nat.add_sub_cancel_left]
          rfl
        have e : before ++ ("url(".toList ++ (v ++ ')' :: after)) = (before ++ "url".toList) ++ ('(' :: (v ++ ')' :: after)) := by simp
        rw [← he, e] at h1
        have := mem_of_getElem? h1 (by simp; omega)
        rcases List.mem_append.mp this with this | this
        · exact hb this
        · exact absurd this (by decide)
      | some u =>
        have h1 : (b ++ (opening (some u) ++ (v' ++ ')' :: a)))[b.length]? = some '/' := by
          rw [List.getElem?_append_right (by omega), Nat.sub_self]
          rfl
        rw [← he] at h1
        exact hs (mem_of_getElem? h1 hq))
  rw [Nat.zero_add] at h
  exact h

/-- **C217**: the line and the column that the parser gives are changed into the number of characters before the place, whatever the pieces are in which
the file is read. -/
theorem C217_places (pieces : List Str) (before after : Str) (line column k : Nat) (hp : pieces.flatten = before ++ after)
    (h : Position before line column) : toCharOffset pieces line (column + k) = some (before.length + k) := by
  obtain ⟨lines, last, rfl, _, hl, rfl, rfl⟩ := h
  unfold toCharOffset
  rw [lineOffsets_eq, hp, Nat.add_sub_cancel]
  have : (0 :: newlines 0 (lines ++ last ++ after))[lines.count '\n']? = some lines.length := by
    rcases hl with rfl | ⟨l, rfl⟩
    · rfl
    · have hc : (l ++ ['\n']).count '\n' = l.count '\n' + 1 := by simp
      rw [hc, List.getElem?_cons_succ, List.append_assoc, List.append_assoc, newlines_append,
        List.getElem?_append_right (by rw [newlines_length]; omega), newlines_length, Nat.sub_self]
      simp [newlines]
  rw [this]
  simp
  omega

/-- **C217**: the asserts hold, and every place within the file is changed into the number of bytes before it. -/
theorem C217_bytes (text : Str) (offsets : List Nat) (h : ∀ n ∈ offsets, n ≤ text.length) :
    ∃ d, byteOffsets text offsets = .ok d ∧ ∀ n, d.get? n = if n ∈ offsets then some (textBytes (text.take n)) else none := by
  obtain ⟨d, h1, h2⟩ := fill_ok text (sorted offsets) 0 [] (pairwise_sorted _) (fun n _ => Nat.zero_le n) (fun n hn => h n ((mem_sorted _ _).mp hn))
  refine ⟨d, h1, ?_⟩
  intro n
  rw [h2]
  simp only [mem_sorted]
  rfl

/-- **C217**: a place beyond the end of the file, which the parser can give if it replaces character references by longer texts, is an error. -/
theorem C217_beyond (text : Str) (offsets : List Nat) (h : ∃ n ∈ offsets, text.length < n) : byteOffsets text offsets = .error .assertionError := by
  obtain ⟨n, hn, hn2⟩ := h
  exact fill_beyond text _ 0 [] (Nat.zero_le _) ⟨n, (mem_sorted _ _).mpr hn, hn2⟩

/-- **C217** as claimed does not hold: data URLs with white space after the parenthesis are not found. -/
theorem C217_violated : ¬ C217_statement := by
  intro h
  obtain ⟨x, hx, _⟩ := h [] [' '] [' '] "data:,x".toList [] (by decide) (by decide)
    ⟨[], [], ['x'], .inl rfl, fun c hc => (by cases hc), fun p hp => (by cases hp), rfl, by decide, by decide⟩ (by decide) (by decide) (by decide)
  have he : handleData 0 ([] ++ ("url(".toList ++ ([' '] ++ ("data:,x".toList ++ ([' '] ++ [')']))))) = [] :=
    List.isEmpty_iff.mp (by decide +kernel)
  rw [he] at hx
  cases hx

/-! ## concrete cases -/

example : (handleData 7 "a{b:/*savepage-url=/f.ttf*/url(data:font/ttf;base64,AAAA)} 'data:,x' \"data:;p,y\"".toList).map
    (fun x => (x.1, x.2.start, x.2.next)) = [("/f.ttf".toList, 7 + 31, some (7 + 56)), ([], 7 + 60, some (7 + 67)), ([], 7 + 70, some (7 + 79))] := by decide +kernel

example : ∃ v, CssAt "a{b:/*savepage-url=/f.ttf*/url(data:font/ttf;base64,AAAA)}".toList 4 (some "/f.ttf".toList) v :=
  ⟨"data:font/ttf;base64,AAAA".toList, by
    intro u hu
    cases hu
    exact ⟨by decide, by decide⟩,
    ⟨"font/ttf".toList, ["base64".toList], "AAAA".toList, .inr ⟨"font".toList, "ttf".toList, by decide, by decide, rfl⟩, by unfold Head; decide,
      by unfold Head; decide, rfl, by decide, by decide⟩, "a{b:".toList, "}".toList, rfl, rfl⟩

example : QuotedAt '"' "x \"data:;p,y\" z".toList 2 "data:;p,y".toList :=
  ⟨⟨[], [['p']], ['y'], .inl rfl, fun c hc => (by cases hc), by unfold Head; decide, rfl, by decide, by decide⟩, "x ".toList, " z".toList, rfl, rfl⟩

example : toCharOffset ["ab\nc".toList, "d\n".toList, "efg".toList] 3 2 = some 8 := by decide

example : Position "ab\ncd\nef".toList 3 2 := ⟨"ab\ncd\n".toList, "ef".toList, rfl, by decide, .inr ⟨"ab\ncd".toList, rfl⟩, rfl, rfl⟩

example : (byteOffsets "aäb".toList [3, 1, 2, 1]).toOption.map (fun d => (d.get? 1, d.get? 2, d.get? 3)) = some (some 1, some 3, some 4) := by decide +kernel

example : ∃ n ∈ [1, 4], "aäb".toList.length < n := ⟨4, by decide, by decide⟩

end Verif.HtmlPlaces
