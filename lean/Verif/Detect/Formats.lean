import Verif.Bytes
import Verif.Dict
import Verif.Py

/-!
# C58: detecting file formats (core/ratarmountcore/formats.py:366-384, 583-643)

A check is an arbitrary function of the file and the position that may raise, and that leaves the file at an arbitrary
position.
-/

namespace Verif.Detect

open Verif.Py Verif.Bin

/-- `FileFormatID` (formats.py:44-97). -/
abbrev Fid := Nat

/-- A file object: its bytes and its position (formats.py:607-635). -/
structure File where
  data : Data
  pos : Nat
  deriving DecidableEq, Repr

/-- `fileobj.read(n)` (formats.py:607-635). -/
def File.read (f : File) (n : Nat) : Data × File :=
  ((f.data.drop f.pos).take n, { f with pos := f.pos + ((f.data.drop f.pos).take n).length })

/-- `fileobj.seek(n)` (formats.py:607-635). -/
def File.seek (f : File) (pos : Nat) : File := { f with pos }

/-- `FileFormatInfo` (formats.py:366-384). -/
structure Info where
  magic : Option Data
  check : Option (Data → Nat → Except PyErr Bool × Nat)

/-- The dictionaries of the module: `FILE_FORMATS`, `_MAGIC_BYTES_TO_FORMATS` and `_FORMATS_WITHOUT_MAGIC_BYTES` (formats.py:572-589). -/
structure Registry where
  formats : Dict Fid Info
  index : Dict Data (List Fid)
  plain : List Fid

/-- One turn of the loop of `recompute_cached_magic_bytes` (formats.py:594-601). -/
def addToIndex (r : Registry) (fid : Fid) (info : Info) : Registry :=
  match info.magic with
  | none => { r with plain := r.plain ++ [fid] }
  | some m =>
    if m.length < 2 then { r with plain := r.plain ++ [fid] }
    else { r with index := Dict.set r.index (m.take 2) ((Dict.get? r.index (m.take 2)).getD [] ++ [fid]) }

/-- `recompute_cached_magic_bytes` (formats.py:592-601). -/
def recompute (r : Registry) : Registry := r.formats.foldl (fun r e => addToIndex r e.1 e.2) r

/-- `formatInfo.magicBytes` as a condition (formats.py:597, 614). -/
def Info.hasMagic (i : Info) : Bool :=
  match i.magic with
  | some m => !m.isEmpty
  | none => false

/-- `might_be_format` (formats.py:607-620). -/
def mightBe (i : Info) (f : File) : Except PyErr Bool × File :=
  let magic := i.magic.getD []
  if i.hasMagic && (f.read magic.length).1 != magic then (.ok false, (f.read magic.length).2.seek f.pos)
  else
    let f1 := if i.hasMagic then (f.read magic.length).2 else f
    match i.check with
    | some c =>
      let f2 := f1.seek f.pos
      match c f2.data f2.pos with
      | (r, pos) => (r, (f2.seek pos).seek f.pos)
    | none => (.ok i.hasMagic, f1.seek f.pos)

/-- `FILE_FORMATS[fid]` and the check (formats.py:608-609). -/
def mightBeId (r : Registry) (fid : Fid) (f : File) : Except PyErr Bool × File :=
  match Dict.get? r.formats fid with
  | none => (.error .keyError, f)
  | some i => mightBe i f

/-- The set comprehension (formats.py:635): an exception ends it. A set is a list here of which only the members matter; recomputing
repeats entries. -/
def testAll (r : Registry) : List Fid → File → Except PyErr (List Fid) × File
  | [], f => (.ok [], f)
  | fid :: fids, f =>
    match mightBeId r fid f with
    | (.error e, f') => (.error e, f')
    | (.ok b, f') =>
      match testAll r fids f' with
      | (.error e, f'') => (.error e, f'')
      | (.ok l, f'') => (.ok (if b then fid :: l else l), f'')

/-- `detect_formats` (formats.py:623-635). -/
def detectFormats (r : Registry) (f : File) : Except PyErr (List Fid) × File :=
  let two := (f.read 2).1
  let f' := (f.read 2).2.seek f.pos
  if two.length < 2 then (.ok [], f')
  else testAll r ((Dict.get? r.index two).getD [] ++ r.plain) f'

/-- `replace_format_check` (formats.py:638-643). -/
def replaceCheck (r : Registry) (fid : Fid) (check : Option (Data → Nat → Except PyErr Bool × Nat)) : Registry :=
  match Dict.get? r.formats fid with
  | none => r
  | some i => { r with formats := Dict.set r.formats fid { i with check } }

/-- A format added or replaced from outside, with the call the comment of `recompute_cached_magic_bytes` asks for (formats.py:638-643). -/
def inject (r : Registry) (fid : Fid) (i : Info) : Registry :=
  recompute { r with formats := Dict.set r.formats fid i }

/-- The states the module can be in: its own table, then any changes. -/
inductive Reachable : Registry → Prop where
  | start (formats : Dict Fid Info) (h : (Dict.keys formats).Nodup) : Reachable (recompute ⟨formats, [], []⟩)
  | replace {r : Registry} (h : Reachable r) (fid : Fid) (check) : Reachable (replaceCheck r fid check)
  | inject {r : Registry} (h : Reachable r) (fid : Fid) (i : Info) : Reachable (inject r fid i)

/-! ## specification -/

/-- A format accepts a file from a position on: its magic bytes are there and its check, if it has one, says so. -/
def Accepts (i : Info) (d : Data) (pos : Nat) : Prop :=
  (∀ m, i.magic = some m → m <+: d.drop pos) ∧ (∀ c, i.check = some c → (c d pos).1 = .ok true) ∧
    ((∃ m, i.magic = some m ∧ m ≠ []) ∨ i.check.isSome)

/-! ## proofs -/

/-- Every format can be found. -/
def Covers (r : Registry) : Prop :=
  ∀ fid i, Dict.get? r.formats fid = some i →
    match i.magic with
    | none => fid ∈ r.plain
    | some m => if m.length < 2 then fid ∈ r.plain else ∃ l, Dict.get? r.index (m.take 2) = some l ∧ fid ∈ l

/-- Only known formats are tested. -/
def Known (r : Registry) : Prop :=
  (∀ fid ∈ r.plain, (Dict.get? r.formats fid).isSome) ∧
    ∀ m l, Dict.get? r.index m = some l → ∀ fid ∈ l, (Dict.get? r.formats fid).isSome

/-- That a format is in the place its magic bytes belong to. -/
def Placed (r : Registry) (fid : Fid) (magic : Option Data) : Prop :=
  match magic with
  | none => fid ∈ r.plain
  | some m => if m.length < 2 then fid ∈ r.plain else ∃ l, Dict.get? r.index (m.take 2) = some l ∧ fid ∈ l

theorem addToIndex_formats (r : Registry) (fid : Fid) (i : Info) : (addToIndex r fid i).formats = r.formats := by
  unfold addToIndex
  cases i.magic with
  | none => rfl
  | some m => simp only; split <;> rfl

theorem addToIndex_placed (r : Registry) (fid : Fid) (i : Info) : Placed (addToIndex r fid i) fid i.magic := by
  unfold addToIndex Placed
  cases i.magic with
  | none => simp
  | some m =>
    simp only
    split
    · simp
    · exact ⟨_, by rw [Dict.get?_set, if_pos rfl], by simp⟩

theorem addToIndex_keeps (r : Registry) (fid : Fid) (i : Info) (g : Fid) (magic : Option Data) (h : Placed r g magic) :
    Placed (addToIndex r fid i) g magic := by
  unfold addToIndex
  have plain : Placed { r with plain := r.plain ++ [fid] } g magic := by
    unfold Placed at h ⊢
    cases magic with
    | none => simp [h]
    | some m =>
      simp only at h ⊢
      split
      · next hl => rw [if_pos hl] at h; simp [h]
      · next hl => rw [if_neg hl] at h; exact h
  cases i.magic with
  | none => exact plain
  | some m =>
    simp only
    split
    · exact plain
    · unfold Placed at h ⊢
      cases magic with
      | none => exact h
      | some m' =>
        simp only at h ⊢
        split
        · next hl => rw [if_pos hl] at h; exact h
        · next hl =>
          rw [if_neg hl] at h
          obtain ⟨l, h1, h2⟩ := h
          rw [Dict.get?_set]
          by_cases he : m.take 2 = m'.take 2
          · rw [if_pos he]
            refine ⟨_, rfl, ?_⟩
            rw [he, h1]
            simp [h2]
          · rw [if_neg he]; exact ⟨l, h1, h2⟩

theorem addToIndex_known (r : Registry) (fid : Fid) (i : Info) (hf : (Dict.get? r.formats fid).isSome) (h : Known r) :
    Known (addToIndex r fid i) := by
  have plain : Known { r with plain := r.plain ++ [fid] } := by
    refine ⟨?_, h.2⟩
    intro g hg
    rcases List.mem_append.mp hg with hg | hg
    · exact h.1 g hg
    · rw [List.mem_singleton.mp hg]; exact hf
  unfold addToIndex
  cases i.magic with
  | none => exact plain
  | some m =>
    simp only
    split
    · exact plain
    · refine ⟨h.1, ?_⟩
      intro m' l hl g hg
      simp only at hl
      rw [Dict.get?_set] at hl
      split at hl
      · injection hl with hl
        subst hl
        rcases List.mem_append.mp hg with hg | hg
        · cases hq : Dict.get? r.index (m.take 2) with
          | none => rw [hq] at hg; simp at hg
          | some l => rw [hq] at hg; exact h.2 _ l hq g hg
        · rw [List.mem_singleton.mp hg]; exact hf
      · exact h.2 m' l hl g hg

/-- The loop over the table. -/
theorem fold_spec (l : List (Fid × Info)) : ∀ r : Registry, (∀ e ∈ l, (Dict.get? r.formats e.1).isSome) → Known r →
    (l.foldl (fun r e => addToIndex r e.1 e.2) r).formats = r.formats ∧
      Known (l.foldl (fun r e => addToIndex r e.1 e.2) r) ∧
      (∀ g m, Placed r g m → Placed (l.foldl (fun r e => addToIndex r e.1 e.2) r) g m) ∧
      ∀ e ∈ l, Placed (l.foldl (fun r e => addToIndex r e.1 e.2) r) e.1 e.2.magic := by
  induction l with
  | nil => intro r _ hk; exact ⟨rfl, hk, fun _ _ h => h, by simp⟩
  | cons e l ih =>
    intro r hf hk
    have h1 := addToIndex_formats r e.1 e.2
    obtain ⟨a, b, c, d⟩ := ih (addToIndex r e.1 e.2) (fun x hx => by rw [h1]; exact hf x (by simp [hx]))
      (addToIndex_known r e.1 e.2 (hf e (by simp)) hk)
    refine ⟨by rw [List.foldl_cons, a, h1], b, fun g m h => c g m (addToIndex_keeps _ _ _ _ _ h), ?_⟩
    intro x hx
    rcases List.mem_cons.mp hx with rfl | hx
    · exact c _ _ (addToIndex_placed r x.1 x.2)
    · exact d x hx

theorem recompute_spec (r : Registry) (hk : Known r) (hn : (Dict.keys r.formats).Nodup) :
    (recompute r).formats = r.formats ∧ Known (recompute r) ∧ Covers (recompute r) := by
  have hm : ∀ e ∈ r.formats, (Dict.get? r.formats e.1).isSome := by
    intro e he
    have := Dict.get?_eq_some_of_mem r.formats hn he
    rw [this]; rfl
  obtain ⟨a, b, _, d⟩ := fold_spec r.formats r hm hk
  refine ⟨a, b, ?_⟩
  intro fid i hi
  have hi' : Dict.get? r.formats fid = some i := by rw [← a]; exact hi
  exact d (fid, i) (Dict.mem_of_get? _ hi')

theorem reachable_inv {r : Registry} (h : Reachable r) : Known r ∧ Covers r ∧ (Dict.keys r.formats).Nodup := by
  induction h with
  | start formats hn =>
    obtain ⟨a, b, c⟩ := recompute_spec ⟨formats, [], []⟩ ⟨by simp, by simp [Dict.get?]⟩ hn
    exact ⟨b, c, by rw [a]; exact hn⟩
  | @replace r _ fid check ih =>
    obtain ⟨hk, hc, hn⟩ := ih
    unfold replaceCheck
    cases hg : Dict.get? r.formats fid with
    | none => exact ⟨hk, hc, hn⟩
    | some i =>
      simp only
      have some' : ∀ g, (Dict.get? r.formats g).isSome →
          (Dict.get? (Dict.set r.formats fid { i with check }) g).isSome := by
        intro g h; rw [Dict.get?_set]; split
        · rfl
        · exact h
      refine ⟨⟨fun g hg => some' g (hk.1 g hg), fun m l hl g hg => some' g (hk.2 m l hl g hg)⟩, ?_, Dict.nodup_set _ hn _ _⟩
      intro g j hj
      simp only at hj
      rw [Dict.get?_set] at hj
      split at hj
      · next he =>
        injection hj with hj
        subst hj
        subst he
        exact hc _ i hg
      · exact hc g j hj
  | @inject r _ fid i ih =>
    obtain ⟨hk, hc, hn⟩ := ih
    have some' : ∀ g, (Dict.get? r.formats g).isSome → (Dict.get? (Dict.set r.formats fid i) g).isSome := by
      intro g h; rw [Dict.get?_set]; split
      · rfl
      · exact h
    have hn' := Dict.nodup_set _ hn fid i
    obtain ⟨a, b, c⟩ := recompute_spec { r with formats := Dict.set r.formats fid i }
      ⟨fun g hg => some' g (hk.1 g hg), fun m l hl g hg => some' g (hk.2 m l hl g hg)⟩ hn'
    exact ⟨b, c, by rw [show (inject r fid i).formats = _ from a]; exact hn'⟩

/-- A check never moves the file. -/
theorem mightBe_pos (i : Info) (f : File) : (mightBe i f).2 = f := by
  unfold mightBe
  simp only
  split
  · rfl
  · cases i.check with
    | none => simp only; split <;> rfl
    | some c => simp only; split <;> rfl

theorem prefix_take {m d : Data} : m <+: d ↔ d.take m.length = m := by
  constructor
  · rintro ⟨t, rfl⟩; simp
  · intro h; rw [← h]; exact List.take_prefix _ _

theorem mightBe_true (i : Info) (f : File) : (mightBe i f).1 = .ok true ↔ Accepts i f.data f.pos := by
  unfold mightBe Accepts Info.hasMagic
  simp only [File.read]
  cases hm : i.magic with
  | none =>
    simp only [Bool.false_and, Bool.false_eq_true, if_false]
    cases hc : i.check with
    | none => simp
    | some c => simp [File.seek]
  | some m =>
    simp only [Option.getD_some]
    have hp := prefix_take (m := m) (d := f.data.drop f.pos)
    by_cases he : m = []
    · subst he
      simp only [List.isEmpty_nil, Bool.not_true, Bool.false_and, Bool.false_eq_true, if_false]
      cases hc : i.check with
      | none => simp
      | some c => simp [File.seek]
    · have hne : m.isEmpty = false := by cases m with
        | nil => exact absurd rfl he
        | cons a b => rfl
      simp only [hne, Bool.not_false, Bool.true_and]
      split
      · next h =>
        have h' : (f.data.drop f.pos).take m.length ≠ m := by simpa using h
        simp only [Except.ok.injEq, Bool.false_eq_true, false_iff]
        rintro ⟨h1, -, -⟩
        exact h' (hp.mp (h1 m rfl))
      · next h =>
        have h' : (f.data.drop f.pos).take m.length = m := by simpa using h
        cases hc : i.check with
        | none => simp [he, hp.mpr h']
        | some c => simp [File.seek, hp.mpr h']

theorem testAll_pos (r : Registry) (fids : List Fid) (f : File) : (testAll r fids f).2 = f := by
  have hid : ∀ fid, (mightBeId r fid f).2 = f := by
    intro fid; unfold mightBeId
    cases Dict.get? r.formats fid with
    | none => rfl
    | some i => exact mightBe_pos i f
  induction fids with
  | nil => rfl
  | cons fid fids ih =>
    simp only [testAll]
    have := hid fid
    cases hm : mightBeId r fid f with
    | mk a f' =>
      rw [hm] at this
      simp only at this
      subst this
      cases a with
      | error e => rfl
      | ok b =>
        simp only
        cases ht : testAll r fids f' with
        | mk l f'' =>
          rw [ht] at ih
          cases l <;> exact ih

theorem testAll_ok (r : Registry) (f : File) (fids l : List Fid) (h : (testAll r fids f).1 = .ok l) (fid : Fid) :
    fid ∈ l ↔ fid ∈ fids ∧ (mightBeId r fid f).1 = .ok true := by
  induction fids generalizing l with
  | nil => simp only [testAll] at h; injection h with h; subst h; simp
  | cons g fids ih =>
    simp only [testAll] at h
    have hpos : (mightBeId r g f).2 = f := by
      unfold mightBeId
      cases Dict.get? r.formats g with
      | none => rfl
      | some i => exact mightBe_pos i f
    cases hm : mightBeId r g f with
    | mk a f' =>
      rw [hm] at hpos h
      simp only at hpos
      subst hpos
      cases a with
      | error e => cases h
      | ok b =>
        simp only at h
        cases ht : testAll r fids f' with
        | mk l' f'' =>
          rw [ht] at h
          cases l' with
          | error e => cases h
          | ok l' =>
            simp only at h
            injection h with h
            subst h
            have := ih l' (by rw [ht])
            have hg : (mightBeId r g f').1 = .ok b := by rw [hm]
            cases b with
            | true =>
              simp only [if_true, List.mem_cons, this]
              constructor
              · rintro (rfl | ⟨h1, h2⟩)
                · exact ⟨.inl rfl, hg⟩
                · exact ⟨.inr h1, h2⟩
              · rintro ⟨h1 | h1, h2⟩
                · exact .inl h1
                · exact .inr ⟨h1, h2⟩
            | false =>
              simp only [Bool.false_eq_true, if_false, List.mem_cons, this]
              constructor
              · rintro ⟨h1, h2⟩; exact ⟨.inr h1, h2⟩
              · rintro ⟨h1 | h1, h2⟩
                · subst h1; rw [hg] at h2; cases h2
                · exact ⟨h1, h2⟩

theorem testAll_error (r : Registry) (f : File) (fids : List Fid) (e : PyErr) (h : (testAll r fids f).1 = .error e) :
    ∃ fid ∈ fids, (mightBeId r fid f).1 = .error e := by
  induction fids with
  | nil => cases h
  | cons g fids ih =>
    simp only [testAll] at h
    have hpos : (mightBeId r g f).2 = f := by
      unfold mightBeId
      cases Dict.get? r.formats g with
      | none => rfl
      | some i => exact mightBe_pos i f
    cases hm : mightBeId r g f with
    | mk a f' =>
      rw [hm] at hpos h
      simp only at hpos
      subst hpos
      cases a with
      | error e' => simp only at h; injection h with h; subst h; exact ⟨g, by simp, by rw [hm]⟩
      | ok b =>
        simp only at h
        cases ht : testAll r fids f' with
        | mk l' f'' =>
          rw [ht] at h
          cases l' with
          | error e' =>
            obtain ⟨x, hx, hx'⟩ := ih (by rw [ht]; simpa using h)
            exact ⟨x, by simp [hx], hx'⟩
          | ok l' => cases h

/-- **C58**, positions: whatever the checks do, the file is left where it was. -/
theorem C58_position (r : Registry) (f : File) :
    (detectFormats r f).2 = f ∧ ∀ i, (mightBe i f).2 = f := by
  refine ⟨?_, fun i => mightBe_pos i f⟩
  unfold detectFormats
  simp only
  split
  · rfl
  · exact testAll_pos r _ f

/-- **C58**: for a file of two or more bytes, in every state the tables can be in, detection gives exactly the formats that
accept the file, unless a check raises. -/
theorem C58_exact {r : Registry} (h : Reachable r) (f : File) (hf : f.pos + 2 ≤ f.data.length) :
    (∀ l, (detectFormats r f).1 = .ok l →
      ∀ fid, fid ∈ l ↔ ∃ i, Dict.get? r.formats fid = some i ∧ Accepts i f.data f.pos) ∧
      ∀ e, (detectFormats r f).1 = .error e → ∃ fid i c, Dict.get? r.formats fid = some i ∧ i.check = some c ∧
        (c f.data f.pos).1 = .error e := by
  obtain ⟨hk, hc, hn⟩ := reachable_inv h
  have htwo : ¬ ((f.data.drop f.pos).take 2).length < 2 := by simp; omega
  have hd : detectFormats r f =
      testAll r ((Dict.get? r.index ((f.data.drop f.pos).take 2)).getD [] ++ r.plain) f := by
    unfold detectFormats
    exact if_neg htwo
  rw [hd]
  constructor
  · intro l hl fid
    rw [testAll_ok r f _ l hl fid]
    unfold mightBeId
    constructor
    · rintro ⟨-, h2⟩
      cases hg : Dict.get? r.formats fid with
      | none => rw [hg] at h2; cases h2
      | some i => rw [hg] at h2; exact ⟨i, rfl, (mightBe_true i f).mp h2⟩
    · rintro ⟨i, hi, ha⟩
      rw [hi]
      refine ⟨?_, (mightBe_true i f).mpr ha⟩
      have hcov := hc fid i hi
      cases hm : i.magic with
      | none => rw [hm] at hcov; exact List.mem_append.mpr (.inr hcov)
      | some m =>
        rw [hm] at hcov
        simp only at hcov
        split at hcov
        · exact List.mem_append.mpr (.inr hcov)
        · next hl =>
          obtain ⟨l', h1, h2⟩ := hcov
          have hpre := ha.1 m hm
          have : m.take 2 = (f.data.drop f.pos).take 2 := by
            obtain ⟨t, ht⟩ := hpre
            rw [← ht, List.take_append_of_le_length (by omega)]
          rw [← this, h1]
          exact List.mem_append.mpr (.inl h2)
  · intro e he
    obtain ⟨fid, hfid, hx⟩ := testAll_error r f _ e he
    have hs : (Dict.get? r.formats fid).isSome := by
      rcases List.mem_append.mp hfid with hfid | hfid
      · cases hq : Dict.get? r.index ((f.data.drop f.pos).take 2) with
        | none => rw [hq] at hfid; simp at hfid
        | some l => rw [hq] at hfid; exact hk.2 _ l hq fid hfid
      · exact hk.1 fid hfid
    cases hg : Dict.get? r.formats fid with
    | none => rw [hg] at hs; cases hs
    | some i =>
      unfold mightBeId at hx
      rw [hg] at hx
      simp only at hx
      unfold mightBe at hx
      simp only at hx
      split at hx
      · cases hx
      · cases hcc : i.check with
        | none => rw [hcc] at hx; cases hx
        | some c =>
          rw [hcc] at hx
          refine ⟨fid, i, c, hg, hcc, ?_⟩
          simp only [File.seek] at hx
          have hdata : (if i.hasMagic = true then (f.read (i.magic.getD []).length).2 else f).data = f.data := by
            split <;> rfl
          rw [hdata] at hx
          cases hq : c f.data f.pos with
          | mk a b => rw [hq] at hx; exact hx

/-- Formats that have no two magic bytes are always tested, the others by their first two bytes. -/
def demoRegistry : Registry :=
  replaceCheck (inject (recompute ⟨[(1, ⟨some [31, 139], none⟩), (2, ⟨none, some fun d _ => (.ok (d.length == 4), 9)⟩),
    (3, ⟨some [31], none⟩), (4, ⟨some [66, 90, 104], none⟩)], [], []⟩) 5 ⟨some [31, 139, 8], none⟩) 1
    (some fun d pos => (.ok (d[pos + 2]? == some 8), 0))

example : Reachable demoRegistry := .replace (.inject (.start _ (by decide)) _ _) _ _
example : (detectFormats demoRegistry ⟨[0, 31, 139, 8], 1⟩).1 = .ok [1, 1, 5, 2, 3, 2, 3] := by decide +kernel
example : (detectFormats demoRegistry ⟨[0, 31, 139, 9], 1⟩).1 = .ok [2, 3, 2, 3] := by decide +kernel

end Verif.Detect
