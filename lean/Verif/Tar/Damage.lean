import Verif.Tar.Header

/-!
# C191, C192: damaged and incomplete TAR archives (core/ratarmountcore/mountsource/formats/tar.py:366-495)

What is shown and what is said if a byte of a header was changed, and if the end of the archive is missing. With the headers of
`Verif.Tar.Header`.
-/

namespace Verif.Tar.Damage

open Verif.Py Verif.Tar Verif.Tar.Header

/-! ## model -/

/-- Whether `process` warns (tar.py:485-495): only for the message "unexpected end of data", which `TarFile.next` has if the archive
ends before the offset of the next header. All other errors are swallowed, here or in `_open_tar` (tar.py:387-390). -/
def warned (c : Codec) (ignoreZeros : Bool) (b : Bytes) (off : Nat) : Bool :=
  if _hb : b.length < off then true
  else
    match hm : fromtarfile c b off with
    | .member _ _ next => warned c ignoreZeros b next
    | .zero => if ignoreZeros && decide (off + 512 ≤ b.length) then warned c ignoreZeros b (off + 512) else false
    | .invalid => if ignoreZeros && decide (off + 512 ≤ b.length) then warned c ignoreZeros b (off + 512) else false
    | .empty | .truncated => false
    | .subsequent => false
termination_by b.length + 1 - off
decreasing_by
  · have := fromtarfile_next hm; omega
  · rename_i h; simp at h; omega
  · rename_i h; simp at h; omega

/-! ## specification -/

/-- The members that are found are exactly these files, in this order, each with its data. -/
def Shows (esc : Bytes → Str) (b : Bytes) (fs : List File) : Prop :=
  (scan (codec esc) false b 0).1.map (fun e => (e.hdr, readAt b e.data e.hdr.size)) = fs.map (fun f => (f.hdr, f.data))

/-- Files with the bytes that a program wrote for each of them. -/
def Good (ws : List (File × Member)) : Prop :=
  ∀ p ∈ ws, Written p.1 p.2 ∧ p.1.Ok ∧ Storable p.1.written ∧ Storable p.1.link

/-- The bytes of members. -/
def bytes (ws : List (File × Member)) : Bytes := ws.flatMap (fun p => p.2.encode)

/-- One of the headers of a member with another byte: the header with number `j`, where the last one is the header of the member itself. -/
def damaged (m : Member) (j i : Nat) (x : UInt8) : Member :=
  if j < m.aux.length then ⟨m.aux.modify j (fun a => ⟨a.block.set i x, a.content⟩), m.block, m.data, m.padding⟩
  else ⟨m.aux, m.block.set i x, m.data, m.padding⟩

/-- The header with number `j`. -/
def header (m : Member) (j : Nat) : Bytes := ((m.aux.map (fun a => a.block))[j]?).getD m.block

/-- The eight bytes of the checksum. -/
def InChecksum (i : Nat) : Prop := 148 ≤ i ∧ i < 156

/-! ## lemmas: sums -/

theorem readAt_set (b : Bytes) (i o n : Nat) (x : UInt8) (h : i < o ∨ o + n ≤ i) : readAt (b.set i x) o n = readAt b o n := by
  unfold readAt
  apply List.ext_getElem?
  intro j
  rw [List.getElem?_take, List.getElem?_take]
  split
  · rw [List.getElem?_drop, List.getElem?_drop, List.getElem?_set_ne (by omega)]
  · rfl

theorem total_append (a b : Bytes) : total (a ++ b) = total a + total b := by
  unfold total
  rw [List.map_append, List.sum_append]

theorem total_set (l : Bytes) (i : Nat) (x y : UInt8) (h : l[i]? = some y) : total (l.set i x) + y.toNat = total l + x.toNat := by
  induction l generalizing i with
  | nil => simp at h
  | cons z l ih =>
    cases i with
    | zero =>
      simp only [List.getElem?_cons_zero, Option.some.injEq] at h
      subst h
      unfold total
      simp only [List.set_cons_zero, List.map_cons, List.sum_cons]
      omega
    | succ i =>
      have := ih i (by simpa using h)
      unfold total at this ⊢
      simp only [List.set_cons_succ, List.map_cons, List.sum_cons]
      omega

theorem signed_sum (l : Bytes) : ∃ n : Nat, (l.map signed).sum = (total l : Int) - 256 * n := by
  induction l with
  | nil => exact ⟨0, rfl⟩
  | cons x l ih =>
    obtain ⟨n, hn⟩ := ih
    have ht : total (x :: l) = x.toNat + total l := by unfold total; simp
    rw [List.map_cons, List.sum_cons, hn, ht]
    unfold signed
    split
    · exact ⟨n, by omega⟩
    · exact ⟨n + 1, by omega⟩

/-- Both parts that are summed. -/
theorem sums (b : Bytes) : ∃ n : Nat, signedSum b = unsignedSum b - 256 * n := by
  obtain ⟨n, hn⟩ := signed_sum (b.take 148)
  obtain ⟨k, hk⟩ := signed_sum (readAt b 156 356)
  refine ⟨n + k, ?_⟩
  unfold signedSum unsignedSum
  rw [hn, hk]
  omega

theorem unsigned_set (b : Bytes) (hb : b.length = 512) (i : Nat) (x y : UInt8) (h : b[i]? = some y) (hi : ¬ InChecksum i) :
    unsignedSum (b.set i x) + y.toNat = unsignedSum b + x.toNat := by
  have hlt : i < 512 := by
    have := (List.getElem?_eq_some_iff.mp h).1
    omega
  unfold InChecksum at hi
  unfold unsignedSum
  by_cases h1 : i < 148
  · rw [readAt_set b i 156 356 x (.inl (by omega))]
    have h2 : (b.set i x).take 148 = (b.take 148).set i x := List.take_set
    have h3 := total_set (b.take 148) i x y (by rw [List.getElem?_take, if_pos h1]; exact h)
    rw [h2]
    omega
  · have h2 : (b.set i x).take 148 = b.take 148 := by
      have := readAt_set b i 0 148 x (.inr (by omega))
      unfold readAt at this
      simpa using this
    have h3 : readAt (b.set i x) 156 356 = (readAt b 156 356).set (i - 156) x := by
      unfold readAt
      rw [List.drop_set, if_neg (by omega), List.take_set]
    have h4 := total_set (readAt b 156 356) (i - 156) x y (by
      unfold readAt
      rw [List.getElem?_take, if_pos (by omega), List.getElem?_drop, show 156 + (i - 156) = i by omega]
      exact h)
    rw [h2, h3]
    omega

theorem stored (r : Raw) : nti (readAt (block r) 148 8) = some (checksum r : Int) := by
  have h1 : readAt (block r) 148 8 = octs 6 (checksum r) ++ [0, 32] :=
    at_field r 6 _ _ _ rfl (by simp [fields, front, padded_length, numeric_length]) (by simp [octs_length])
  rw [h1, nti_octs 6 _ [32] (checksum_lt r) (by decide)]

theorem unchecked (r : Raw) (i : Nat) (x y : UInt8) (h : (block r)[i]? = some y) (hne : x ≠ y) (hi : ¬ InChecksum i) :
    checked ((block r).set i x) = false := by
  have hi' := hi
  unfold InChecksum at hi'
  have h1 := unsigned_set (block r) (block_length r) i x y h hi
  obtain ⟨n, h2⟩ := sums ((block r).set i x)
  have h3 : x.toNat ≠ y.toNat := fun he => hne (UInt8.toNat_inj.mp he)
  have h4 := UInt8.toNat_lt x
  have h5 := UInt8.toNat_lt y
  have h6 := sum_block r
  unfold checked
  rw [readAt_set _ _ _ _ _ (by omega), stored]
  simp only [Bool.or_eq_false_iff, decide_eq_false_iff_not]
  constructor
  · omega
  · omega

/-- Outside of the checksum, every other byte makes the header invalid. -/
theorem parse_bad (esc : Bytes → Str) (r : Raw) (i : Nat) (x y : UInt8) (h : (block r)[i]? = some y) (hne : x ≠ y) (hi : ¬ InChecksum i) :
    parse esc ((block r).set i x) = none := by
  unfold parse
  rw [unchecked r i x y h hne hi]
  rfl

theorem flag_set (b : Bytes) (i : Nat) (x : UInt8) (hi : InChecksum i) : flag (b.set i x) = flag b := by
  unfold InChecksum at hi
  unfold flag
  rw [List.getD_eq_getElem?_getD, List.getD_eq_getElem?_getD, List.getElem?_set_ne (by omega)]

/-- In the checksum, another byte makes the header invalid or changes nothing. -/
theorem parse_sum (esc : Bytes → Str) (r : Raw) (i : Nat) (x : UInt8) (hi : InChecksum i) :
    parse esc ((block r).set i x) = none ∨ parse esc ((block r).set i x) = parse esc (block r) := by
  have hi' := hi
  unfold InChecksum at hi'
  cases hc : checked ((block r).set i x) with
  | false =>
    left
    unfold parse
    rw [hc]
    rfl
  | true =>
    right
    unfold parse numbersOk
    rw [hc, checked_block, flag_set _ _ _ hi]
    simp only [readAt_set (block r) i 108 8 x (.inr (by omega)), readAt_set (block r) i 116 8 x (.inr (by omega)),
      readAt_set (block r) i 136 12 x (.inr (by omega)), readAt_set (block r) i 329 8 x (.inl (by omega)),
      readAt_set (block r) i 337 8 x (.inl (by omega)), readAt_set (block r) i 100 8 x (.inr (by omega)),
      readAt_set (block r) i 124 12 x (.inr (by omega)), readAt_set (block r) i 0 100 x (.inr (by omega)),
      readAt_set (block r) i 345 155 x (.inl (by omega)), readAt_set (block r) i 157 100 x (.inl (by omega))]

/-! ## lemmas: the iteration -/

/-- A header in front of another one. -/
def AuxOk (c : Codec) (a : Aux) : Prop := ∃ ah, IsBlock c a.block ah ∧ announces ah.type = true ∧ a.content.length = roundUp ah.size

theorem aux_ok {c : Codec} {block : Bytes} {own : Hdr} : ∀ {aux : List Aux} {h : Hdr}, HeadOk c aux block own h →
    (∀ a ∈ aux, AuxOk c a) ∧ block.length = 512 := by
  intro aux
  induction aux with
  | nil => rintro h ⟨⟨hl, _⟩, _⟩; exact ⟨fun a ha => (by cases ha), hl⟩
  | cons a aux ih =>
    rintro h ⟨ah, h', h1, h2, h3, h4, -⟩
    obtain ⟨i1, i2⟩ := ih h4
    refine ⟨fun b hb => ?_, i2⟩
    rcases List.mem_cons.mp hb with rfl | hb
    · exact ⟨ah, h1, h2, h3⟩
    · exact i1 b hb

/-- The result is an error that ends the iteration. -/
def Ends (r : HdrRes) : Prop := r = .empty ∨ r = .truncated ∨ r = .invalid ∨ r = .subsequent

/-- Headers in front of something that cannot be read. -/
theorem ends_aux (c : Codec) : ∀ (aux : List Aux) (pre rest : Bytes), (∀ a ∈ aux, AuxOk c a) →
    (∀ pre', pre' = pre ++ aux.flatMap (fun a => a.block ++ a.content) → Ends (fromtarfile c (pre' ++ rest) pre'.length)) →
    Ends (fromtarfile c (pre ++ (aux.flatMap (fun a => a.block ++ a.content) ++ rest)) pre.length) := by
  intro aux
  induction aux with
  | nil =>
    intro pre rest _ h
    have := h pre (by simp)
    simpa using this
  | cons a aux ih =>
    intro pre rest ha h
    obtain ⟨ah, ⟨hl, hz, hp⟩, h2, h3⟩ := ha a List.mem_cons_self
    rw [← isAux_eq] at h2
    have e1 : pre ++ (List.flatMap (fun a : Aux => a.block ++ a.content) (a :: aux) ++ rest) =
        (pre ++ a.block ++ a.content) ++ (List.flatMap (fun a : Aux => a.block ++ a.content) aux ++ rest) := by
      simp [List.append_assoc]
    have e2 : pre ++ (List.flatMap (fun a : Aux => a.block ++ a.content) (a :: aux) ++ rest) =
        pre ++ (a.block ++ (a.content ++ (List.flatMap (fun a : Aux => a.block ++ a.content) aux ++ rest))) := by
      simp [List.append_assoc]
    have r1 : readAt (pre ++ (List.flatMap (fun a : Aux => a.block ++ a.content) (a :: aux) ++ rest)) pre.length 512 = a.block := by
      rw [e2, ← hl]; exact readAt_mid _ _ _
    have hi := ih (pre ++ a.block ++ a.content) rest (fun b hb => ha b (List.mem_cons_of_mem _ hb)) (fun pre' hpre => h pre' (by
      rw [hpre]; simp [List.append_assoc]))
    rw [← e1, show (pre ++ a.block ++ a.content).length = pre.length + 512 + roundUp ah.size by simp only [List.length_append, hl, h3]] at hi
    rw [fromtarfile, if_neg (by simp only [List.length_append, List.flatMap_cons, hl]; omega),
      dif_neg (by simp only [List.length_append, List.flatMap_cons, hl]; omega), r1, not_all_zero hz, hp]
    simp only [h2, Bool.false_eq_true, if_false, if_true]
    rcases hi with hi | hi | hi | hi <;> rw [hi] <;> exact .inr (.inr (.inr rfl))

/-- A block that cannot be read. -/
theorem ends_bad (c : Codec) (pre bad rest : Bytes) (hl : bad.length = 512) (hz : ∃ x ∈ bad, x ≠ 0) (hp : c.parse bad = none) :
    Ends (fromtarfile c (pre ++ (bad ++ rest)) pre.length) := by
  have r1 : readAt (pre ++ (bad ++ rest)) pre.length 512 = bad := by rw [← hl]; exact readAt_mid _ _ _
  rw [fromtarfile, if_neg (by simp only [List.length_append, hl]; omega), dif_neg (by simp only [List.length_append, hl]; omega), r1,
    not_all_zero hz, hp]
  exact .inr (.inr (.inl rfl))

/-- A part of a block. -/
theorem ends_short (c : Codec) (pre rest : Bytes) (hl : rest.length < 512) : Ends (fromtarfile c (pre ++ rest) pre.length) := by
  rw [fromtarfile]
  split
  · exact .inl rfl
  · rw [dif_pos (by rw [List.length_append]; omega)]
    exact .inr (.inl rfl)

/-- A header whose contents are incomplete. -/
theorem ends_content (c : Codec) (pre : Bytes) (a : Aux) (ha : AuxOk c a) (k : Nat) (hk : k < a.content.length) :
    Ends (fromtarfile c (pre ++ (a.block ++ a.content.take k)) pre.length) := by
  obtain ⟨ah, ⟨hl, hz, hp⟩, h2, h3⟩ := ha
  rw [← isAux_eq] at h2
  have r1 : readAt (pre ++ (a.block ++ a.content.take k)) pre.length 512 = a.block := by rw [← hl]; exact readAt_mid _ _ _
  have hi : fromtarfile c (pre ++ (a.block ++ a.content.take k)) (pre.length + 512 + roundUp ah.size) = .empty := by
    rw [fromtarfile, if_pos]
    simp only [List.length_append, hl, List.length_take]
    omega
  rw [fromtarfile, if_neg (by simp only [List.length_append, hl]; omega), dif_neg (by simp only [List.length_append, hl]; omega), r1,
    not_all_zero hz, hp]
  simp only [h2, Bool.false_eq_true, if_false, if_true, hi]
  exact .inr (.inr (.inr rfl))

theorem scan_ends (c : Codec) (b : Bytes) (off : Nat) (hb : off ≤ b.length) (h : Ends (fromtarfile c b off)) :
    (scan c false b off).1 = [] ∧ warned c false b off = false := by
  constructor
  · rw [scan, dif_neg (by omega)]
    rcases h with h | h | h | h <;> split <;> rename_i hh <;> rw [h] at hh <;> first | (cases hh; done) | rfl | simp
  · rw [warned, dif_neg (by omega)]
    rcases h with h | h | h | h <;> split <;> rename_i hh <;> rw [h] at hh <;> first | (cases hh; done) | rfl | simp

/-- Members in front do not matter for the warning. -/
theorem warned_members (c : Codec) (ign : Bool) (ms : List (Member × Hdr)) : ∀ (pre post : Bytes), (∀ p ∈ ms, p.1.Ok c p.2) →
    warned c ign (pre ++ (encode (ms.map (·.1)) ++ post)) pre.length =
      warned c ign (pre ++ (encode (ms.map (·.1)) ++ post)) (pre ++ encode (ms.map (·.1))).length := by
  induction ms with
  | nil => intro pre post _; simp [encode]
  | cons p ms ih =>
    obtain ⟨m, h⟩ := p
    intro pre post hok
    have hm : m.Ok c h := hok (m, h) (by simp)
    obtain ⟨own, ho⟩ := hm.own
    have e1 : pre ++ (encode (((m, h) :: ms).map (·.1)) ++ post) =
        pre ++ (m.aux.flatMap (fun a => a.block ++ a.content) ++ m.block ++
          (m.data ++ m.padding ++ (encode (ms.map (·.1)) ++ post))) := by
      simp [encode_cons, Member.encode, Member.head, List.append_assoc]
    have e2 : pre ++ (encode (((m, h) :: ms).map (·.1)) ++ post) = (pre ++ m.encode) ++ (encode (ms.map (·.1)) ++ post) := by
      simp [encode_cons, List.append_assoc]
    have hf := fromtarfile_head c m.block own m.aux h pre (m.data ++ m.padding ++ (encode (ms.map (·.1)) ++ post)) ho
    rw [← e1] at hf
    have hn := nextOffset_ok hm pre.length
    unfold Member.head at hn
    rw [hn] at hf
    have ihh := ih (pre ++ m.encode) post (fun p hp => hok p (List.mem_cons_of_mem _ hp))
    rw [← e2] at ihh
    rw [warned, dif_neg (by simp only [List.length_append]; omega)]
    split
    · next h' data next hh =>
      rw [hf] at hh
      simp only [HdrRes.member.injEq] at hh
      obtain ⟨-, -, rfl⟩ := hh
      rw [List.length_append] at ihh
      rw [ihh]
      have e3 : pre ++ m.encode ++ encode (List.map (·.1) ms) = pre ++ encode (List.map (·.1) ((m, h) :: ms)) := by
        simp [encode_cons, List.append_assoc]
      rw [e3]
    all_goals (rename_i hh; rw [hf] at hh; cases hh)

/-! ## lemmas: files -/

/-- The members with their headers. -/
def withHdr (ws : List (File × Member)) : List (Member × Hdr) := ws.map (fun p => (p.2, p.1.hdr))

theorem bytes_eq (ws : List (File × Member)) : encode ((withHdr ws).map (·.1)) = bytes ws := by
  unfold encode withHdr bytes
  rw [List.map_map, List.flatMap_map]
  rfl

theorem good_ok (esc : Bytes → Str) {ws : List (File × Member)} (h : Good ws) : ∀ p ∈ withHdr ws, p.1.Ok (codec esc) p.2 := by
  intro p hp
  obtain ⟨q, hq, rfl⟩ := List.mem_map.mp hp
  obtain ⟨h1, h2, h3, h4⟩ := h q hq
  exact written_ok esc h2 h3 h4 h1

theorem data_eq {f : File} {m : Member} (h : Written f m) : m.data = f.data := by cases h <;> rfl

theorem entries_length : ∀ (ms : List (Member × Hdr)) (o : Nat), (entriesAt o ms).length = ms.length := by
  intro ms
  induction ms with
  | nil => intro o; rfl
  | cons p ms ih => intro o; obtain ⟨m, h⟩ := p; simp [entriesAt, ih]

/-- What is behind the members does not change what is found for them. -/
theorem entries_files (esc : Bytes → Str) {ws : List (File × Member)} (h : Good ws) (post : Bytes) :
    (entriesAt 0 (withHdr ws)).map (fun e => (e.hdr, readAt (bytes ws ++ post) e.data e.hdr.size)) = ws.map (fun p => (p.1.hdr, p.1.data)) := by
  apply List.ext_getElem?
  intro k
  rw [List.getElem?_map, List.getElem?_map]
  cases hk : ws[k]? with
  | none =>
    have : (entriesAt 0 (withHdr ws))[k]? = none := by
      rw [List.getElem?_eq_none_iff, entries_length]
      unfold withHdr
      rw [List.length_map]
      exact List.getElem?_eq_none_iff.mp hk
    rw [this]
    rfl
  | some p =>
    have hk' : (withHdr ws)[k]? = some (p.2, p.1.hdr) := by
      unfold withHdr
      rw [List.getElem?_map, hk]
      rfl
    obtain ⟨e, h1, h2, -, -, h5, -⟩ := entriesAt_spec (codec esc) (withHdr ws) [] post k p.2 p.1.hdr (good_ok esc h) hk'
    rw [bytes_eq, List.nil_append] at h5
    rw [show (entriesAt 0 (withHdr ws))[k]? = some e from h1]
    show some (e.hdr, readAt (bytes ws ++ post) e.data e.hdr.size) = some (p.1.hdr, p.1.data)
    rw [h2, h5, data_eq (h p (List.mem_of_getElem? hk)).1]

/-- Members in front of something that ends the iteration. -/
theorem shows_ends (esc : Bytes → Str) {ws : List (File × Member)} (h : Good ws) (post : Bytes)
    (he : Ends (fromtarfile (codec esc) (bytes ws ++ post) (bytes ws).length)) :
    Shows esc (bytes ws ++ post) (ws.map (fun p => p.1)) ∧ warned (codec esc) false (bytes ws ++ post) 0 = false := by
  have h1 := scan_members (codec esc) false (withHdr ws) [] post (good_ok esc h)
  have h2 := warned_members (codec esc) false (withHdr ws) [] post (good_ok esc h)
  rw [bytes_eq] at h1 h2
  simp only [List.nil_append, List.length_nil] at h1 h2
  obtain ⟨h3, h4⟩ := scan_ends (codec esc) (bytes ws ++ post) (bytes ws).length (by rw [List.length_append]; omega) he
  refine ⟨?_, by rw [h2, h4]⟩
  unfold Shows
  rw [h1, h3, List.append_nil, entries_files esc h post, List.map_map]
  rfl

/-- All headers of a member are written as blocks. -/
theorem written_blocks {f : File} {m : Member} (h : Written f m) : (∀ a ∈ m.aux, ∃ r, a.block = block r) ∧ ∃ r, m.block = block r := by
  cases h with
  | gnu x hx =>
    refine ⟨fun a ha => ?_, _, rfl⟩
    rcases List.mem_append.mp ha with ha | ha
    · unfold gnuLink at ha
      split at ha
      · rw [List.mem_singleton] at ha; exact ⟨_, by rw [ha]; rfl⟩
      · cases ha
    · unfold gnuName at ha
      split at ha
      · rw [List.mem_singleton] at ha; exact ⟨_, by rw [ha]; rfl⟩
      · cases ha
  | ustar x hx _ pre name h => exact ⟨fun a ha => (by cases ha), _, rfl⟩
  | pax x y hx hy _ rs title name link size h =>
    refine ⟨fun a ha => ?_, _, rfl⟩
    have ha' : a ∈ [_] := ha
    rw [List.mem_singleton] at ha'
    exact ⟨_, by rw [ha']⟩

/-- The checksum ends with a space. -/
theorem space_block (r : Raw) : (block r)[155]? = some 32 := by
  have h1 : readAt (block r) 148 8 = octs 6 (checksum r) ++ [0, 32] :=
    at_field r 6 _ _ _ rfl (by simp [fields, front, padded_length, numeric_length]) (by simp [octs_length])
  have h2 := congrArg (fun l => l[7]?) h1
  simp only [readAt, List.getElem?_take, List.getElem?_drop] at h2
  rw [if_pos (by decide)] at h2
  rw [h2, List.getElem?_append_right (by rw [octs_length]; decide), octs_length]
  rfl

/-- The damaged header. -/
theorem bad_block (esc : Bytes → Str) (r : Raw) (i : Nat) (x y : UInt8) (h : (block r)[i]? = some y) (hne : x ≠ y) (hi : ¬ InChecksum i) :
    ((block r).set i x).length = 512 ∧ (∃ z ∈ (block r).set i x, z ≠ 0) ∧ (codec esc).parse ((block r).set i x) = none := by
  refine ⟨by rw [List.length_set, block_length], ⟨32, ?_, by decide⟩, parse_bad esc r i x y h hne hi⟩
  apply List.mem_of_getElem? (i := 155)
  unfold InChecksum at hi
  rw [List.getElem?_set_ne (by omega)]
  exact space_block r

theorem modify_split (l : List Aux) (j : Nat) (a : Aux) (h : l[j]? = some a) (g : Aux → Aux) :
    l.modify j g = l.take j ++ g a :: l.drop (j + 1) := by
  have hj := (List.getElem?_eq_some_iff.mp h)
  rw [List.modify_eq_take_cons_drop hj.1, hj.2]

/-- The bytes of a member with a damaged header: good headers, then a bad one, then the rest. -/
theorem damaged_bytes (esc : Bytes → Str) {f : File} {m : Member} (hw : Written f m) (hok : m.Ok (codec esc) f.hdr) (j i : Nat) (x y : UInt8)
    (hj : j ≤ m.aux.length) (h : (header m j)[i]? = some y) (hne : x ≠ y) (hi : ¬ InChecksum i) :
    ∃ (aux : List Aux) (bad rest : Bytes), (∀ a ∈ aux, AuxOk (codec esc) a) ∧ bad.length = 512 ∧ (∃ z ∈ bad, z ≠ 0) ∧ (codec esc).parse bad = none ∧
      (damaged m j i x).encode = aux.flatMap (fun a => a.block ++ a.content) ++ (bad ++ rest) := by
  obtain ⟨own, ho⟩ := hok.own
  have ha := (aux_ok ho).1
  obtain ⟨hb1, rb, hb2⟩ := written_blocks hw
  unfold header at h
  by_cases hlt : j < m.aux.length
  · have hg : m.aux[j]? = some m.aux[j] := List.getElem?_eq_getElem hlt
    rw [List.getElem?_map, hg] at h
    have h' : (m.aux[j].block)[i]? = some y := h
    obtain ⟨r, hr⟩ := hb1 _ (List.getElem_mem hlt)
    rw [hr] at h'
    obtain ⟨c1, c2, c3⟩ := bad_block esc r i x y h' hne hi
    refine ⟨m.aux.take j, m.aux[j].block.set i x,
      m.aux[j].content ++ ((m.aux.drop (j + 1)).flatMap (fun a => a.block ++ a.content) ++ (m.block ++ (m.data ++ m.padding))),
      fun a h2 => ha a (List.mem_of_mem_take h2), by rw [hr]; exact c1, by rw [hr]; exact c2, by rw [hr]; exact c3, ?_⟩
    unfold damaged
    rw [if_pos hlt]
    unfold Member.encode Member.head
    simp only
    rw [modify_split _ _ _ hg]
    simp [List.flatMap_append, List.append_assoc]
  · have hnone : m.aux[j]? = none := List.getElem?_eq_none_iff.mpr (by omega)
    rw [List.getElem?_map, hnone] at h
    have h' : (m.block)[i]? = some y := h
    rw [hb2] at h'
    obtain ⟨c1, c2, c3⟩ := bad_block esc rb i x y h' hne hi
    refine ⟨m.aux, m.block.set i x, m.data ++ m.padding, ha, by rw [hb2]; exact c1, by rw [hb2]; exact c2, by rw [hb2]; exact c3, ?_⟩
    unfold damaged
    rw [if_neg hlt]
    unfold Member.encode Member.head
    simp [List.append_assoc]

/-! ## C191 -/

/-- The archive in which a header of `m` is damaged. -/
def damagedArchive (before after : List (File × Member)) (m : Member) (j i : Nat) (x : UInt8) (zeros : Nat) : Bytes :=
  bytes before ++ ((damaged m j i x).encode ++ (bytes after ++ List.replicate zeros 0))

/-- C191: if one byte of one header in an archive is damaged, a warning is given or all files are still shown. -/
def C191_statement : Prop :=
  ∀ (esc : Bytes → Str) (before after : List (File × Member)) (f : File) (m : Member) (j i : Nat) (x : UInt8) (zeros : Nat),
    Good (before ++ (f, m) :: after) → j ≤ m.aux.length → i < 512 →
    warned (codec esc) false (damagedArchive before after m j i x zeros) 0 = true ∨
      Shows esc (damagedArchive before after m j i x zeros) ((before ++ (f, m) :: after).map (fun p => p.1))

/-- **C191**: a damaged byte of a header is never mistaken for other contents: the header is refused or still means the same. -/
theorem C191_detected_partial (esc : Bytes → Str) (r : Raw) (i : Nat) (x : UInt8) :
    parse esc ((block r).set i x) = none ∨ parse esc ((block r).set i x) = parse esc (block r) := by
  by_cases hi : InChecksum i
  · exact parse_sum esc r i x hi
  · cases h : (block r)[i]? with
    | none =>
      right
      rw [List.set_eq_of_length_le (List.getElem?_eq_none_iff.mp h)]
    | some y =>
      by_cases hne : x = y
      · right
        subst hne
        congr 1
        apply List.ext_getElem?
        intro k
        by_cases hk : i = k
        · subst hk
          rw [h, List.getElem?_set_self (List.getElem?_eq_some_iff.mp h).1]
        · rw [List.getElem?_set_ne hk]
      · exact .inl (parse_bad esc r i x y h hne hi)

/-- **C191**: all files in front of the damage are shown with their data, and nothing wrong is shown; but what is behind is silently missing. -/
theorem C191_before_partial (esc : Bytes → Str) (before after : List (File × Member)) (f : File) (m : Member) (j i : Nat) (x y : UInt8) (zeros : Nat)
    (hg : Good (before ++ (f, m) :: after)) (hj : j ≤ m.aux.length) (h : (header m j)[i]? = some y) (hne : x ≠ y) (hi : ¬ InChecksum i) :
    Shows esc (damagedArchive before after m j i x zeros) (before.map (fun p => p.1)) ∧
      warned (codec esc) false (damagedArchive before after m j i x zeros) 0 = false := by
  obtain ⟨h1, h2, h3, h4⟩ := hg (f, m) (by simp)
  have hb : Good before := fun p hp => hg p (List.mem_append.mpr (.inl hp))
  obtain ⟨aux, bad, rest, a1, a2, a3, a4, a5⟩ := damaged_bytes esc h1 (written_ok esc h2 h3 h4 h1) j i x y hj h hne hi
  unfold damagedArchive
  refine shows_ends esc hb _ ?_
  rw [a5]
  have := ends_aux (codec esc) aux (bytes before) (bad ++ (rest ++ (bytes after ++ List.replicate zeros 0))) a1 (fun pre' _ => by
    exact ends_bad (codec esc) pre' bad _ a2 a3 a4)
  simp only [List.append_assoc] at this ⊢
  exact this

/-! ## C192 -/

/-- The archive of which only the headers and data in front, and `k` bytes of the member `m` are left. -/
def cutArchive (before : List (File × Member)) (m : Member) (k : Nat) : Bytes := bytes before ++ m.encode.take k

/-- C192: if the end of an archive is missing inside of a member, a warning is given. -/
def C192_statement : Prop :=
  ∀ (esc : Bytes → Str) (before : List (File × Member)) (f : File) (m : Member) (k : Nat),
    Good (before ++ [(f, m)]) → 0 < k → k < m.encode.length → warned (codec esc) false (cutArchive before m k) 0 = true

/-- A part of the headers. -/
theorem ends_head (c : Codec) (block rest : Bytes) (hl : block.length = 512) : ∀ (aux : List Aux) (pre : Bytes) (k : Nat), (∀ a ∈ aux, AuxOk c a) →
    k < (aux.flatMap (fun a => a.block ++ a.content) ++ block).length →
    Ends (fromtarfile c (pre ++ (aux.flatMap (fun a => a.block ++ a.content) ++ (block ++ rest)).take k) pre.length) := by
  intro aux
  induction aux with
  | nil =>
    intro pre k _ hk
    refine ends_short c pre _ ?_
    simp only [List.flatMap_nil, List.nil_append] at hk
    rw [List.length_take]
    omega
  | cons a aux ih =>
    intro pre k ha hk
    have hak := ha a List.mem_cons_self
    obtain ⟨ah, ⟨hla, -, -⟩, -, h3⟩ := hak
    by_cases h1 : k < 512
    · refine ends_short c pre _ ?_
      rw [List.length_take]
      omega
    · have e1 : List.flatMap (fun a : Aux => a.block ++ a.content) (a :: aux) ++ (block ++ rest) =
          a.block ++ (a.content ++ (List.flatMap (fun a : Aux => a.block ++ a.content) aux ++ (block ++ rest))) := by
        simp [List.append_assoc]
      rw [e1, List.take_append, List.take_of_length_le (by omega)]
      by_cases h2 : k < a.block.length + a.content.length
      · rw [List.take_append_of_le_length (by omega)]
        exact ends_content c pre a (ha a List.mem_cons_self) _ (by omega)
      · rw [List.take_append, List.take_of_length_le (by omega)]
        have h4 := ends_aux c [a] pre ((List.flatMap (fun a : Aux => a.block ++ a.content) aux ++ (block ++ rest)).take
          (k - a.block.length - a.content.length)) (fun b hb => by rw [List.mem_singleton] at hb; subst hb; exact ha b List.mem_cons_self)
          (fun pre' _ => ih pre' _ (fun b hb => ha b (List.mem_cons_of_mem _ hb)) (by
            simp only [List.flatMap_cons, List.length_append] at hk ⊢
            omega))
        simp only [List.flatMap_cons, List.flatMap_nil, List.append_nil, List.append_assoc] at h4 ⊢
        exact h4

/-- **C192**: all files whose data is complete are shown with their data. If the end is missing inside of the headers of a file, nothing
else is shown, and no warning is given. -/
theorem C192_headers_partial (esc : Bytes → Str) (before : List (File × Member)) (f : File) (m : Member) (k : Nat)
    (hg : Good (before ++ [(f, m)])) (hk : k < m.head.length) :
    Shows esc (cutArchive before m k) (before.map (fun p => p.1)) ∧ warned (codec esc) false (cutArchive before m k) 0 = false := by
  obtain ⟨h1, h2, h3, h4⟩ := hg (f, m) (by simp)
  have hb : Good before := fun p hp => hg p (List.mem_append.mpr (.inl hp))
  obtain ⟨own, ho⟩ := (written_ok esc h2 h3 h4 h1).own
  refine shows_ends esc hb _ ?_
  have := ends_head (codec esc) m.block (m.data ++ m.padding) (aux_ok ho).2 m.aux (bytes before) k (aux_ok ho).1 hk
  unfold Member.encode Member.head
  simp only [List.append_assoc] at this ⊢
  exact this

/-- **C192**: if the end is missing inside of the data of a file, all files in front of it are shown with their data, the file is shown with its
full size and the data that is there, and a warning is given. -/
theorem C192_data_partial (esc : Bytes → Str) (before : List (File × Member)) (f : File) (m : Member) (k : Nat)
    (hg : Good (before ++ [(f, m)])) (hk : m.head.length ≤ k) (hk2 : k < m.encode.length) :
    warned (codec esc) false (cutArchive before m k) 0 = true ∧
      (scan (codec esc) false (cutArchive before m k) 0).1.map (fun e => (e.hdr, readAt (cutArchive before m k) e.data e.hdr.size)) =
        before.map (fun p => (p.1.hdr, p.1.data)) ++ [(f.hdr, f.data.take (k - m.head.length))] := by
  obtain ⟨h1, h2, h3, h4⟩ := hg (f, m) (by simp)
  have hb : Good before := fun p hp => hg p (List.mem_append.mpr (.inl hp))
  have hok := written_ok esc h2 h3 h4 h1
  obtain ⟨own, ho⟩ := hok.own
  -- the bytes
  have e0 : cutArchive before m k = bytes before ++ (m.aux.flatMap (fun a => a.block ++ a.content) ++ m.block ++
      (m.data ++ m.padding).take (k - m.head.length)) := by
    unfold cutArchive Member.encode
    rw [List.append_assoc, List.take_append, List.take_of_length_le hk]
    rfl
  have hlen : (cutArchive before m k).length = (bytes before).length + k := by
    unfold cutArchive
    rw [List.length_append, List.length_take]
    omega
  have hf := fromtarfile_head (codec esc) m.block own m.aux f.hdr (bytes before) ((m.data ++ m.padding).take (k - m.head.length)) ho
  rw [← e0] at hf
  have hn := nextOffset_ok hok (bytes before).length
  unfold Member.head at hn
  rw [hn] at hf
  have s1 := scan_members (codec esc) false (withHdr before) [] (m.encode.take k) (good_ok esc hb)
  have s2 := warned_members (codec esc) false (withHdr before) [] (m.encode.take k) (good_ok esc hb)
  rw [bytes_eq] at s1 s2
  simp only [List.nil_append, List.length_nil] at s1 s2
  change scan (codec esc) false (cutArchive before m k) 0 = _ at s1
  change warned (codec esc) false (cutArchive before m k) 0 = _ at s2
  have next_w : warned (codec esc) false (cutArchive before m k) ((bytes before).length + m.encode.length) = true := by
    rw [warned, dif_pos (by omega)]
  have next_s : (scan (codec esc) false (cutArchive before m k) ((bytes before).length + m.encode.length)).1 = [] := by
    rw [scan, dif_pos (by omega)]
  have here_w : warned (codec esc) false (cutArchive before m k) (bytes before).length = true := by
    rw [warned, dif_neg (by omega)]
    split
    · next hh =>
      rw [hf] at hh
      simp only [HdrRes.member.injEq] at hh
      obtain ⟨-, -, rfl⟩ := hh
      exact next_w
    all_goals (rename_i hh; rw [hf] at hh; cases hh)
  have here_s : (scan (codec esc) false (cutArchive before m k) (bytes before).length).1 =
      [⟨f.hdr, (bytes before).length, (bytes before).length + m.head.length⟩] := by
    rw [scan, dif_neg (by omega)]
    split
    · next hh =>
      rw [hf] at hh
      simp only [HdrRes.member.injEq] at hh
      obtain ⟨rfl, rfl, rfl⟩ := hh
      simp only [next_s]
      rfl
    all_goals (rename_i hh; rw [hf] at hh; cases hh)
  refine ⟨by rw [s2]; exact here_w, ?_⟩
  rw [s1]
  simp only
  rw [show (scan (codec esc) false (bytes before ++ m.encode.take k) (bytes before).length).1 = _ from here_s, List.map_append]
  congr 1
  · exact entries_files esc hb (m.encode.take k)
  · simp only [List.map_cons, List.map_nil, List.cons.injEq, Prod.mk.injEq, true_and, and_true]
    have e2 : cutArchive before m k = (bytes before ++ m.head) ++ (m.data ++ m.padding).take (k - m.head.length) := by
      rw [e0]; unfold Member.head; simp [List.append_assoc]
    unfold readAt
    rw [e2, ← List.length_append, List.drop_left' rfl, List.take_take, Nat.min_comm, ← List.take_take]
    rw [show f.hdr.size = m.data.length from hok.size, List.take_append_of_le_length (Nat.le_refl _), List.take_length, data_eq h1]

/-! ## the claims are violated, and concrete cases -/

def extra : Extra := ⟨1000, 1000, 1700000000, [117, 115, 116, 97, 114], [], []⟩

def fileA : File := ⟨.file, ['a'], 0o644, [1, 2, 3], []⟩
def fileB : File := ⟨.file, ['b'], 0o644, [4, 5], []⟩

def two : List (File × Member) := [(fileA, gnu extra fileA), (fileB, gnu extra fileB)]

theorem two_good : Good two := by
  intro p hp
  simp only [two, List.mem_cons, List.not_mem_nil, or_false] at hp
  rcases hp with rfl | rfl
  · exact ⟨.gnu extra ⟨by decide, by decide, by decide⟩ fileA, ⟨by decide, by decide, by decide, fun h => absurd rfl h, by decide, fun h => by cases h⟩,
      by unfold Storable; decide, by unfold Storable; decide⟩
  · exact ⟨.gnu extra ⟨by decide, by decide, by decide⟩ fileB, ⟨by decide, by decide, by decide, fun h => absurd rfl h, by decide, fun h => by cases h⟩,
      by unfold Storable; decide, by unfold Storable; decide⟩

theorem two_first : (header (gnu extra fileB) 0)[0]? = some 98 := by decide +kernel

/-- C191: the first letter of the name in the header of the second file is damaged; only the first file is left, without any warning. -/
theorem two_damaged (esc : Bytes → Str) :
    Shows esc (damagedArchive [(fileA, gnu extra fileA)] [] (gnu extra fileB) 0 0 99 1024) [fileA] ∧
      warned (codec esc) false (damagedArchive [(fileA, gnu extra fileA)] [] (gnu extra fileB) 0 0 99 1024) 0 = false :=
  C191_before_partial esc [(fileA, gnu extra fileA)] [] fileB (gnu extra fileB) 0 0 99 98 1024 two_good (by decide) two_first (by decide)
    (by unfold InChecksum; omega)

theorem C191_violated : ¬ C191_statement := by
  intro h
  obtain ⟨h1, h2⟩ := two_damaged (fun _ => [])
  rcases h (fun _ => []) [(fileA, gnu extra fileA)] [] fileB (gnu extra fileB) 0 0 99 1024 two_good (by decide) (by decide) with h3 | h3
  · rw [h2] at h3; cases h3
  · unfold Shows at h1 h3
    rw [h1] at h3
    exact absurd (congrArg List.length h3) (by decide)

/-- C191: the header is refused. -/
example (esc : Bytes → Str) : parse esc ((block (rawOf extra 48 0o644 [98] [] [] 2)).set 0 99) = none :=
  parse_bad esc _ 0 99 98 (by decide +kernel) (by decide) (by unfold InChecksum; omega)

theorem C192_violated : ¬ C192_statement := by
  intro h
  have h1 := h (fun _ => []) [(fileA, gnu extra fileA)] fileB (gnu extra fileB) 100 two_good (by decide) (by decide +kernel)
  have h2 := (C192_headers_partial (fun _ => []) [(fileA, gnu extra fileA)] fileB (gnu extra fileB) 100 two_good (by decide +kernel)).2
  rw [h1] at h2
  cases h2

/-- C192: one byte of the data of the second file is left. -/
example (esc : Bytes → Str) : warned (codec esc) false (cutArchive [(fileA, gnu extra fileA)] (gnu extra fileB) 513) 0 = true :=
  (C192_data_partial esc [(fileA, gnu extra fileA)] fileB (gnu extra fileB) 513 two_good (by decide +kernel) (by decide +kernel)).1

end Verif.Tar.Damage
