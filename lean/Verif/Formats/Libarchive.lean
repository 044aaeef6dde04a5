import Verif.Py
import Verif.FileSpec

/-!
# C64, C65: members of archives that can only be read sequentially
(core/ratarmountcore/mountsource/formats/libarchive.py:300-512)

The library libarchive is represented by what it gives: one member after the other, and the bytes of the current member one
after the other. `IterableArchive`s do not disturb each other here; C100 is about file objects they share.
-/

namespace Verif.Libarchive

open Verif.Py Verif.FileSpec

/-- `IterableArchive`: the number of the next member and what is left of the current one (libarchive.py:176-335). -/
structure Archive (α : Type) where
  next : Nat
  rest : List α
  eof : Bool
  deriving DecidableEq, Repr

/-- A newly opened archive (libarchive.py:193-224). -/
def Archive.fresh {α : Type} : Archive α := ⟨0, [], false⟩

/-- `next_entry` (libarchive.py:310-329): the number of the member. -/
def Archive.nextEntry {α : Type} (entries : List (List α)) (a : Archive α) : Option Nat × Archive α :=
  if a.eof then (none, a)
  else match entries[a.next]? with
    | none => (none, ⟨a.next + 1, [], true⟩)
    | some d => (some a.next, ⟨a.next + 1, d, false⟩)

/-- `IterableArchiveCache.insert` (libarchive.py:343-346). -/
def insert {α : Type} (cacheSize : Nat) (cache : List (Archive α)) (a : Archive α) : List (Archive α) :=
  (cache ++ [a]).drop ((cache ++ [a]).length - cacheSize)

/-- `IterableArchiveCache.take` (libarchive.py:348-354); `max` takes the first of several. -/
def take {α : Type} (m : Nat) : List (Archive α) → Option (Archive α × List (Archive α))
  | [] => none
  | a :: as => match take m as with
    | none => if a.next < m then some (a, as) else none
    | some (b, rest) => if a.next < m ∧ b.next ≤ a.next then some (a, as) else some (b, a :: rest)

/-- The loop of `_open` (libarchive.py:388-394) up to the member. -/
def advance {α : Type} (entries : List (List α)) (m : Nat) (a : Archive α) : Option (Archive α) :=
  match _h : a.nextEntry entries with
  | (none, _) => none
  | (some i, a') => if i = m then some a' else advance entries m a'
  termination_by entries.length - a.next
  decreasing_by
    unfold Archive.nextEntry at _h
    split at _h
    · cases _h
    · split at _h
      · cases _h
      · next d hd =>
        injection _h with h1 h2
        have := (List.getElem?_eq_some_iff.mp hd).1
        rw [← h2]
        simp only
        omega

/-- `LibarchiveFile` (libarchive.py:357-507). `io` is the position of `_bufferIO`, whose contents are the buffer. -/
structure LibFile (α : Type) where
  archive : Archive α
  bufferOffset : Nat
  buffer : List α
  io : Option Nat
  deriving DecidableEq, Repr

/-- `_refill_buffer` (libarchive.py:399-418). A buffer that is missing has no bytes. -/
def LibFile.refill {α : Type} (chunk size : Nat) (f : LibFile α) : Except PyErr (LibFile α) :=
  if f.bufferOffset + f.buffer.length ≥ size then .ok f
  else
    let off := f.bufferOffset + f.buffer.length
    let toRead := min chunk (size - off)
    let data := f.archive.rest.take toRead
    if data.length ≠ toRead then .error .runtimeError
    else .ok ⟨{ f.archive with rest := f.archive.rest.drop toRead }, off, data, some 0⟩

/-- `_open` (libarchive.py:381-397) without the `close` in front of it. -/
def openFile {α : Type} (entries : List (List α)) (chunk m size : Nat) (cache : List (Archive α)) :
    Except PyErr (LibFile α) × List (Archive α) :=
  let (a, cache) := match take m cache with
    | none => (Archive.fresh, cache)
    | some (a, rest) => (a, rest)
  match advance entries m a with
  | none => (.error .valueError, cache)
  | some a => (LibFile.refill chunk size ⟨a, 0, [], none⟩, cache)

/-- `_bufferIO.read(size)` (libarchive.py:449-466). -/
def ioRead {α : Type} (buffer : List α) (pos : Nat) (n : Int) : List α :=
  if n < 0 then buffer.drop pos else (buffer.drop pos).take n.toNat

/-- `read1` (libarchive.py:449-456). -/
def LibFile.read1 {α : Type} (chunk size : Nat) (f : LibFile α) (n : Int) : Except PyErr (List α × LibFile α) :=
  match f.io with
  | none => .error .runtimeError
  | some pos =>
    let result := ioRead f.buffer pos n
    if result ≠ [] then .ok (result, { f with io := some (pos + result.length) })
    else match f.refill chunk size with
      | .error e => .error e
      | .ok f =>
        let pos := f.io.getD 0
        let result := ioRead f.buffer pos n
        .ok (result, { f with io := some (pos + result.length) })

/-- What can still be read. -/
def LibFile.left {α : Type} (f : LibFile α) : Nat := (f.buffer.length - f.io.getD 0) + f.archive.rest.length

theorem ioRead_length {α : Type} (buffer : List α) (pos : Nat) (n : Int) :
    (ioRead buffer pos n).length ≤ buffer.length - pos := by
  unfold ioRead
  split
  · simp
  · simp only [List.length_take, List.length_drop]; omega

theorem refill_left {α : Type} {chunk size : Nat} {f f' : LibFile α} (h : f.refill chunk size = .ok f') : f'.left ≤ f.left := by
  unfold LibFile.refill at h
  split at h
  · injection h with h; rw [h]; exact Nat.le_refl _
  · simp only at h
    split at h
    · cases h
    · injection h with h
      subst h
      simp only [LibFile.left, Option.getD_some, List.length_take, List.length_drop]
      omega

theorem read1_left {α : Type} {chunk size : Nat} {f f' : LibFile α} {n : Int} {data : List α}
    (h : f.read1 chunk size n = .ok (data, f')) (hd : data ≠ []) : f'.left < f.left := by
  unfold LibFile.read1 at h
  split at h
  · cases h
  · next pos hio =>
    simp only at h
    have hpos := List.length_pos_iff.mpr hd
    split at h
    · injection h with h
      injection h with h1 h2
      subst h2
      have := ioRead_length f.buffer pos n
      rw [h1] at this
      simp only [LibFile.left, Option.getD_some, hio, h1]
      omega
    · split at h
      · cases h
      · next f2 hr =>
        have := refill_left hr
        injection h with h
        injection h with h1 h2
        subst h2
        have h3 := ioRead_length f2.buffer (f2.io.getD 0) n
        rw [h1] at h3
        simp only [LibFile.left, Option.getD_some, h1] at this ⊢
        omega

/-- The loop of `read` (libarchive.py:459-466) with `result` already read. -/
def LibFile.readLoop {α : Type} (chunk size : Nat) (n : Int) (f : LibFile α) (result : List α) :
    Except PyErr (List α × LibFile α) :=
  if n < 0 ∨ (result.length : Int) < n then
    match _h : f.read1 chunk size (if n < 0 then n else n - result.length) with
    | .error e => .error e
    | .ok (data, f') => if _hd : data = [] then .ok (result, f') else f'.readLoop chunk size n (result ++ data)
  else .ok (result, f)
  termination_by f.left
  decreasing_by exact read1_left _h _hd

/-- `read` (libarchive.py:459-466). -/
def LibFile.read {α : Type} (chunk size : Nat) (f : LibFile α) (n : Int) : Except PyErr (List α × LibFile α) :=
  f.readLoop chunk size n []

/-- The loop of `_skip` (libarchive.py:468-475). -/
def LibFile.skipLoop {α : Type} (chunk size : Nat) (n : Int) (f : LibFile α) : Except PyErr (LibFile α) :=
  if n > 0 then
    match _h : f.read1 chunk size n with
    | .error e => .error e
    | .ok (data, f') => if _hd : data = [] then .ok f' else f'.skipLoop chunk size (n - data.length)
  else .ok f
  termination_by f.left
  decreasing_by exact read1_left _h _hd

/-- `_skip` (libarchive.py:468-475). -/
def LibFile.skip {α : Type} (chunk size : Nat) (f : LibFile α) (n : Int) : Except PyErr (LibFile α) :=
  if f.io.isNone then .error .runtimeError else f.skipLoop chunk size n

/-- `tell` (libarchive.py:503-507). -/
def LibFile.tell {α : Type} (f : LibFile α) : Nat := f.bufferOffset + f.io.getD 0

/-- `seek` (libarchive.py:478-500): the returned position, the file, the cache. -/
def LibFile.seek {α : Type} (entries : List (List α)) (cacheSize chunk m size : Nat) (cache : List (Archive α)) (f : LibFile α)
    (offset : Int) (whence : Whence) : Except PyErr (Nat × LibFile α × List (Archive α)) :=
  if f.io.isNone then .error .runtimeError
  else
    let here := f.tell
    let offset : Int := match whence with | .set => offset | .cur => offset + here | .end_ => offset + size
    if offset ≥ here then
      match f.skip chunk size (offset - here) with
      | .error e => .error e
      | .ok f => .ok (f.tell, f, cache)
    else if offset ≥ f.bufferOffset ∧ offset < f.bufferOffset + f.buffer.length then
      let f := { f with io := some (offset.toNat - f.bufferOffset) }
      .ok (f.tell, f, cache)
    else
      match openFile entries chunk m size (insert cacheSize cache f.archive) with
      | (.error e, _) => .error e
      | (.ok f, cache) => match f.skip chunk size (max 0 offset) with
        | .error e => .error e
        | .ok f => .ok (f.tell, f, cache)

/-! ## specification -/

/-- One call, with the cache as other members have left it: the result, the file, the cache. -/
def LibFile.step {α : Type} (entries : List (List α)) (cacheSize chunk m size : Nat) (cache : List (Archive α)) (f : LibFile α) :
    FileOp → LibFile α × List (Archive α) × FileOut α
  | .read n => match f.read chunk size n with
    | .error e => (f, cache, .err e)
    | .ok (d, f') => (f', cache, .bytes d)
  | .seek o w => match f.seek entries cacheSize chunk m size cache o w with
    | .error e => (f, cache, .err e)
    | .ok (r, f', cache') => (f', cache', .num r)
  | .tell => (f, cache, .num f.tell)

/-- A history: before each call the cache may be anything. -/
def LibFile.run {α : Type} (entries : List (List α)) (cacheSize chunk m size : Nat) (f : LibFile α) :
    List (List (Archive α) × FileOp) → List (FileOut α)
  | [] => []
  | (cache, op) :: ops =>
    let r := f.step entries cacheSize chunk m size cache op
    r.2.2 :: r.1.run entries cacheSize chunk m size ops

/-- Archives that are open for the same file: somewhere between two members or inside of one. -/
def Archive.Valid {α : Type} (entries : List (List α)) (a : Archive α) : Prop :=
  a.eof = true → entries.length ≤ a.next

/-- Every position a seek leads to is inside of the member or at its end. -/
def Within {α : Type} (m : BytesIO α) : List FileOp → Bool
  | [] => true
  | op :: ops =>
    (match op with | .seek o w => decide (0 ≤ m.target o w) && decide (m.target o w ≤ m.content.length) | _ => true) &&
      Within (m.step op).1 ops

/-- The file shows the member, for every history and whatever the cache is. -/
def Shows {α : Type} (entries : List (List α)) (cacheSize chunk m : Nat) (content : List α) (cache : List (Archive α))
    (ops : List (List (Archive α) × FileOp)) : Prop :=
  ∃ f, (openFile entries chunk m content.length cache).1 = .ok f ∧
    f.run entries cacheSize chunk m content.length ops = (BytesIO.mk content 0).run (ops.map (·.2))

/-- For members that are not empty (C65 is about empty ones). -/
def C64_statement (α : Type) : Prop :=
  ∀ (entries : List (List α)) (cacheSize chunk m : Nat) (content : List α) (cache : List (Archive α))
    (ops : List (List (Archive α) × FileOp)), 0 < chunk → entries[m]? = some content → content ≠ [] →
    (∀ a ∈ cache, a.Valid entries) → (∀ e ∈ ops, ∀ a ∈ e.1, a.Valid entries) →
    (BytesIO.mk content 0).accepts (ops.map (·.2)) = true → Shows entries cacheSize chunk m content cache ops

def C65_statement (α : Type) : Prop :=
  ∀ (entries : List (List α)) (cacheSize chunk m : Nat) (cache : List (Archive α)) (n : Int), 0 < chunk →
    entries[m]? = some [] → (∀ a ∈ cache, a.Valid entries) → Shows entries cacheSize chunk m [] cache [(cache, .read n)]

/-! ## proofs -/

theorem take_some {α : Type} {m : Nat} {cache : List (Archive α)} {a : Archive α} {rest : List (Archive α)}
    (h : take m cache = some (a, rest)) : a ∈ cache ∧ a.next < m ∧ (∀ b ∈ rest, b ∈ cache) ∧
      ∀ b ∈ cache, b.next < m → b.next ≤ a.next := by
  induction cache generalizing a rest with
  | nil => cases h
  | cons x cache ih =>
    rw [take] at h
    split at h
    · next hn =>
      split at h
      · next hx =>
        injection h with h
        injection h with h1 h2
        subst h1 h2
        refine ⟨by simp, hx, fun b hb => by simp [hb], ?_⟩
        intro b hb hbm
        rcases List.mem_cons.mp hb with rfl | hb
        · exact Nat.le_refl _
        · -- nothing qualifies in the rest
          exfalso
          have none : ∀ l : List (Archive α), take m l = none → ∀ b ∈ l, ¬ b.next < m := by
            intro l
            induction l with
            | nil => intro _ b hb; simp at hb
            | cons y l ihl =>
              intro h b hb
              rw [take] at h
              split at h
              · next hl =>
                split at h
                · cases h
                · next hy =>
                  rcases List.mem_cons.mp hb with rfl | hb
                  · exact hy
                  · exact ihl hl b hb
              · split at h <;> cases h
          exact none _ hn b hb hbm
      · cases h
    · next b r hr =>
      obtain ⟨h1, h2, h3, h4⟩ := ih hr
      split at h
      · next hx =>
        injection h with h
        injection h with e1 e2
        subst e1 e2
        refine ⟨by simp, hx.1, fun b hb => by simp [hb], ?_⟩
        intro c hc hcm
        rcases List.mem_cons.mp hc with rfl | hc
        · exact Nat.le_refl _
        · exact Nat.le_trans (h4 c hc hcm) hx.2
      · next hx =>
        injection h with h
        injection h with e1 e2
        subst e1 e2
        refine ⟨by simp [h1], h2, ?_, ?_⟩
        · intro c hc
          rcases List.mem_cons.mp hc with rfl | hc
          · simp
          · simp [h3 c hc]
        · intro c hc hcm
          rcases List.mem_cons.mp hc with rfl | hc
          · by_cases hle : b.next ≤ c.next
            · exact absurd ⟨hcm, hle⟩ hx
            · omega
          · exact h4 c hc hcm

theorem mem_insert {α : Type} {cacheSize : Nat} {cache : List (Archive α)} {a b : Archive α} (h : b ∈ insert cacheSize cache a) :
    b ∈ cache ∨ b = a := by
  have := List.mem_of_mem_drop h
  simpa using this

theorem insert_length {α : Type} (cacheSize : Nat) (cache : List (Archive α)) (a : Archive α) :
    (insert cacheSize cache a).length ≤ cacheSize := by
  simp only [insert, List.length_drop]; omega

/-- The loop of `_open` gets to the member from every place before it. -/
theorem advance_spec {α : Type} (entries : List (List α)) (m : Nat) (a : Archive α) (content : List α) (hm : entries[m]? = some content)
    (hv : a.Valid entries) (ha : a.next ≤ m) : advance entries m a = some ⟨m + 1, content, false⟩ := by
  have hlt := (List.getElem?_eq_some_iff.mp hm).1
  fun_induction advance entries m a with
  | case1 a a' h =>
    unfold Archive.nextEntry at h
    split at h
    · next he => have := hv he; omega
    · split at h
      · next hn => rw [List.getElem?_eq_none_iff] at hn; omega
      · cases h
  | case2 a a' h =>
    unfold Archive.nextEntry at h
    split at h
    · cases h
    · split at h
      · cases h
      · next d hd =>
        injection h with h1 h2
        injection h1 with h1
        rw [h1, hm] at hd
        injection hd with hd
        rw [← h2, h1, hd]
  | case3 a i a' h he ih =>
    unfold Archive.nextEntry at h
    split at h
    · cases h
    · split at h
      · cases h
      · next d hd =>
        injection h with h1 h2
        injection h1 with h1
        subst h1 h2
        exact ih (by intro hc; cases hc) (by simp only; omega)

/-- The file is at position `p` of the member. -/
structure At {α : Type} (m : Nat) (content : List α) (f : LibFile α) (p : Nat) : Prop where
  pos : ∃ q, f.io = some q ∧ f.bufferOffset + q = p ∧ q ≤ f.buffer.length
  inside : f.bufferOffset + f.buffer.length ≤ content.length
  buffer : f.buffer = (content.drop f.bufferOffset).take f.buffer.length
  rest : f.archive.rest = content.drop (f.bufferOffset + f.buffer.length)
  next : f.archive.next = m + 1
  eof : f.archive.eof = false

theorem refill_first {α : Type} (chunk m : Nat) (content : List α) (hne : content ≠ []) :
    ∃ f, LibFile.refill chunk content.length ⟨⟨m + 1, content, false⟩, 0, [], none⟩ = .ok f ∧ At m content f 0 := by
  have := List.length_pos_iff.mpr hne
  unfold LibFile.refill
  simp only [List.length_nil, Nat.add_zero, Nat.sub_zero, List.length_take]
  rw [if_neg (by omega), if_neg (by omega)]
  refine ⟨_, rfl, ⟨0, rfl, rfl, by simp⟩, ?_, ?_, ?_, rfl, rfl⟩
  · simp only [List.length_take]; omega
  · simp only [List.drop_zero, List.length_take]
    congr 1
    omega
  · simp only [List.length_take, Nat.zero_add]
    congr 1
    omega

theorem openFile_ok {α : Type} (entries : List (List α)) (chunk m : Nat) (content : List α) (cache : List (Archive α))
    (hm : entries[m]? = some content) (hne : content ≠ []) (hv : ∀ a ∈ cache, a.Valid entries) :
    ∃ f, (openFile entries chunk m content.length cache).1 = .ok f ∧ At m content f 0 := by
  unfold openFile
  split
  next a cache' h =>
    have hadv : advance entries m a = some ⟨m + 1, content, false⟩ := by
      split at h
      · injection h with h1 _
        subst h1
        exact advance_spec entries m _ content hm (by intro h; cases h) (Nat.zero_le _)
      · next b rest hb =>
        injection h with h1 _
        subst h1
        obtain ⟨h1, h2, -, -⟩ := take_some hb
        exact advance_spec entries m _ content hm (hv _ h1) (by omega)
    rw [hadv]
    exact refill_first chunk m content hne

theorem ioRead_at {α : Type} {m : Nat} {content : List α} {f : LibFile α} {p q : Nat} (h : At m content f p) (hq : f.io = some q)
    (n : Int) : ∃ k, ioRead f.buffer q n = (content.drop p).take k ∧ k ≤ content.length - p ∧
      (n < 0 → k = f.buffer.length - q) ∧ (0 ≤ n → k = min n.toNat (f.buffer.length - q)) ∧
      (ioRead f.buffer q n).length = k := by
  obtain ⟨q', h1, h2, h3⟩ := h.pos
  rw [hq] at h1
  injection h1 with h1
  subst h1
  have hin := h.inside
  have hbuf : ∀ j, (f.buffer.drop q).take j = (content.drop p).take (min j (f.buffer.length - q)) := by
    intro j
    rw [h.buffer]
    rw [← h2, ← List.drop_drop, List.drop_take, List.take_take]
    congr 1
    rw [← h.buffer]
  unfold ioRead
  split
  · next hn =>
    refine ⟨f.buffer.length - q, ?_, by omega, fun _ => rfl, fun h => by omega, by simp⟩
    have := hbuf (f.buffer.length - q)
    rw [Nat.min_self] at this
    rw [← this, List.take_of_length_le (by simp)]
  · next hn =>
    refine ⟨min n.toNat (f.buffer.length - q), hbuf _, by omega, fun h => by omega, fun _ => rfl, ?_⟩
    simp only [List.length_take, List.length_drop]

theorem at_move {α : Type} {m : Nat} {content : List α} {f : LibFile α} {p : Nat} (h : At m content f p) (q' : Nat)
    (hq : q' ≤ f.buffer.length) : At m content { f with io := some q' } (f.bufferOffset + q') :=
  ⟨⟨q', rfl, rfl, hq⟩, h.inside, h.buffer, h.rest, h.next, h.eof⟩

/-- `read1` gives a part of what comes next, and only at the end nothing. -/
theorem read1_at {α : Type} (chunk m : Nat) (hc : 0 < chunk) {content : List α} {f : LibFile α} {p : Nat} (h : At m content f p)
    (hp : p ≤ content.length) (n : Int) (hn : n ≠ 0) : ∃ k f', f.read1 chunk content.length n = .ok ((content.drop p).take k, f') ∧
      k ≤ content.length - p ∧ (0 ≤ n → k ≤ n.toNat) ∧ (p < content.length → 0 < k) ∧ At m content f' (p + k) := by
  obtain ⟨q, h1, h2, h3⟩ := h.pos
  obtain ⟨k, g1, g2, g3, g4, g5⟩ := ioRead_at h h1 n
  unfold LibFile.read1
  simp only [h1]
  have hin := h.inside
  by_cases hk : k = 0
  · have hnil : ioRead f.buffer q n = [] := by rw [← List.length_eq_zero_iff, g5, hk]
    rw [if_neg (by simp [hnil])]
    have hend : f.buffer.length = q := by
      by_cases hneg : n < 0
      · have := g3 hneg; omega
      · have := g4 (by omega); omega
    by_cases hlast : p = content.length
    · have hr : f.refill chunk content.length = .ok f := by
        unfold LibFile.refill
        rw [if_pos (by omega)]
      rw [hr]
      simp only [h1, Option.getD_some, hnil, List.length_nil, Nat.add_zero]
      exact ⟨0, { f with io := some q }, by simp, by omega, by omega, by omega, by
        have := at_move h q h3
        rw [h2] at this
        exact this⟩
    · have hr : f.refill chunk content.length =
          .ok ⟨{ f.archive with rest := f.archive.rest.drop (min chunk (content.length - p)) }, p,
            (content.drop p).take (min chunk (content.length - p)), some 0⟩ := by
        unfold LibFile.refill
        rw [if_neg (by omega)]
        simp only
        rw [hend, h2, h.rest, hend, h2, if_neg]
        simp only [List.length_take, List.length_drop]
        omega
      rw [hr]
      simp only [Option.getD_some]
      have hat : At m content ⟨{ f.archive with rest := f.archive.rest.drop (min chunk (content.length - p)) }, p,
            (content.drop p).take (min chunk (content.length - p)), some 0⟩ p := by
        refine ⟨⟨0, rfl, rfl, by simp⟩, ?_, ?_, ?_, h.next, h.eof⟩
        · simp only [List.length_take, List.length_drop]; omega
        · simp only [List.length_take, List.length_drop]
          congr 1
          omega
        · simp only [List.length_take, List.length_drop]
          rw [h.rest, hend, h2, List.drop_drop]
          congr 1
          omega
      obtain ⟨k', e1, e2, e3, e4, e5⟩ := ioRead_at hat rfl n
      simp only [List.length_take, List.length_drop] at e3 e4
      refine ⟨k', _, by rw [e1], e2, ?_, ?_, ?_⟩
      · intro hpos; have := e4 hpos; omega
      · intro _
        by_cases hneg : n < 0
        · have := e3 hneg; omega
        · have := e4 (by omega); omega
      · have := at_move hat (0 + k') (by
          simp only [List.length_take, List.length_drop]
          by_cases hneg : n < 0
          · have := e3 hneg; omega
          · have := e4 (by omega); omega)
        have hk' : ((content.drop p).take k').length = k' := by simp; omega
        rw [hk']
        simpa using this
  · have hne : ioRead f.buffer q n ≠ [] := by
      intro he
      rw [he] at g5
      exact hk g5.symm
    rw [if_pos hne]
    refine ⟨k, _, by rw [g1], g2, ?_, fun _ => by omega, ?_⟩
    · intro hpos; have := g4 hpos; omega
    · have := at_move h (q + k) (by
        by_cases hneg : n < 0
        · have := g3 hneg; omega
        · have := g4 (by omega); omega)
      have hk' : ((content.drop p).take k).length = k := by simp; omega
      rw [hk']
      rw [← Nat.add_assoc, h2] at this
      exact this

theorem take_take_drop {α : Type} (l : List α) (j k : Nat) : l.take j ++ (l.drop j).take k = l.take (j + k) := by
  rw [List.take_add]

theorem readLoop_at {α : Type} (chunk m : Nat) (hc : 0 < chunk) (content : List α) (n : Int) (p : Nat) (hp : p ≤ content.length) :
    ∀ (left : Nat) (f : LibFile α) (j : Nat), content.length - (p + j) ≤ left → p + j ≤ content.length → At m content f (p + j) →
    (0 ≤ n → j ≤ n.toNat) →
    ∃ f', f.readLoop chunk content.length n ((content.drop p).take j) =
      .ok (if n < 0 then content.drop p else (content.drop p).take n.toNat, f') ∧
      At m content f' (p + (if n < 0 then content.length - p else min n.toNat (content.length - p))) := by
  intro left
  induction left with
  | zero =>
    intro f j hl hj hat hjn
    have hjl : j = content.length - p := by omega
    rw [LibFile.readLoop]
    have hlen : ((content.drop p).take j).length = j := by simp; omega
    by_cases hcond : n < 0 ∨ (((content.drop p).take j).length : Int) < n
    · rw [if_pos hcond]
      rw [hlen] at hcond ⊢
      obtain ⟨k, f', h1, h2, h3, h4, h5⟩ := read1_at chunk m hc hat hj (if n < 0 then n else n - j) (by split <;> omega)
      have hk : k = 0 := by omega
      split
      · next e he => rw [h1] at he; cases he
      · next data f2 he =>
        rw [h1] at he
        injection he with he
        injection he with he1 he2
        rw [dif_pos (by rw [← he1, hk]; rfl)]
        subst he2
        refine ⟨f', ?_, ?_⟩
        · congr 2
          split
          · rw [List.take_of_length_le (by simp; omega)]
          · rw [List.take_of_length_le (by simp; omega), List.take_of_length_le (by simp; omega)]
        · rw [hk] at h5
          have : p + j + 0 = p + (if n < 0 then content.length - p else min n.toNat (content.length - p)) := by
            split <;> omega
          rw [this] at h5
          exact h5
    · rw [if_neg hcond]
      rw [hlen] at hcond
      have hn : ¬ n < 0 := fun h => hcond (Or.inl h)
      refine ⟨f, ?_, ?_⟩
      · rw [if_neg hn]
        congr 3
        omega
      · rw [if_neg hn]
        have : p + j = p + min n.toNat (content.length - p) := by omega
        rw [this] at hat
        exact hat
  | succ left ih =>
    intro f j hl hj hat hjn
    have hlen : ((content.drop p).take j).length = j := by simp; omega
    rw [LibFile.readLoop]
    by_cases hcond : n < 0 ∨ (((content.drop p).take j).length : Int) < n
    · rw [if_pos hcond]
      rw [hlen] at hcond ⊢
      obtain ⟨k, f', h1, h2, h3, h4, h5⟩ := read1_at chunk m hc hat hj (if n < 0 then n else n - j) (by split <;> omega)
      split
      · next e he => rw [h1] at he; cases he
      · next data f2 he =>
        rw [h1] at he
        injection he with he
        injection he with he1 he2
        subst he2
        by_cases hk : k = 0
        · rw [dif_pos (by rw [← he1, hk]; rfl)]
          have hend : p + j = content.length := by
            rcases Nat.lt_or_ge (p + j) content.length with hlt | hge
            · have := h4 hlt; omega
            · omega
          refine ⟨f', ?_, ?_⟩
          · congr 2
            split
            · rw [List.take_of_length_le (by simp; omega)]
            · rw [List.take_of_length_le (by simp; omega), List.take_of_length_le (by simp; omega)]
          · rw [hk] at h5
            have : p + j + 0 = p + (if n < 0 then content.length - p else min n.toNat (content.length - p)) := by
              split <;> omega
            rw [this] at h5
            exact h5
        · have hdl : data.length = k := by
            rw [← he1, List.length_take, List.length_drop]; omega
          rw [dif_neg (by intro h; rw [h] at hdl; exact hk hdl.symm)]
          have hcat : (content.drop p).take j ++ data = (content.drop p).take (j + k) := by
            rw [← he1, ← List.drop_drop, take_take_drop]
          rw [hcat]
          refine ih f' (j + k) (by omega) (by omega) (by rw [← Nat.add_assoc]; exact h5) ?_
          intro hn
          have hnn : ¬ n < 0 := by omega
          rw [if_neg hnn] at h3
          have hlt : (j : Int) < n := by
            rcases hcond with h | h
            · exact absurd h hnn
            · exact h
          have := h3 (by omega)
          omega
    · rw [if_neg hcond]
      rw [hlen] at hcond
      have hn : ¬ n < 0 := fun h => hcond (Or.inl h)
      refine ⟨f, ?_, ?_⟩
      · rw [if_neg hn]
        congr 3
        omega
      · rw [if_neg hn]
        have : p + j = p + min n.toNat (content.length - p) := by omega
        rw [this] at hat
        exact hat

theorem skipLoop_at {α : Type} (chunk m : Nat) (hc : 0 < chunk) (content : List α) :
    ∀ (left : Nat) (n : Int) (f : LibFile α) (p : Nat), content.length - p ≤ left → p ≤ content.length → At m content f p → 0 ≤ n →
    ∃ f', f.skipLoop chunk content.length n = .ok f' ∧ At m content f' (p + min n.toNat (content.length - p)) := by
  intro left
  induction left with
  | zero =>
    intro n f p hl hp hat hn
    rw [LibFile.skipLoop]
    by_cases hpos : n > 0
    · rw [if_pos hpos]
      obtain ⟨k, f', h1, h2, h3, h4, h5⟩ := read1_at chunk m hc hat hp n (by omega)
      split
      · next e he => rw [h1] at he; cases he
      · next data f2 he =>
        rw [h1] at he
        injection he with he
        injection he with he1 he2
        subst he2
        have hk : k = 0 := by omega
        rw [dif_pos (by rw [← he1, hk]; rfl)]
        refine ⟨f', rfl, ?_⟩
        rw [hk] at h5
        have : p + 0 = p + min n.toNat (content.length - p) := by omega
        rw [this] at h5
        exact h5
    · rw [if_neg hpos]
      refine ⟨f, rfl, ?_⟩
      have : p = p + min n.toNat (content.length - p) := by omega
      rw [← this]
      exact hat
  | succ left ih =>
    intro n f p hl hp hat hn
    rw [LibFile.skipLoop]
    by_cases hpos : n > 0
    · rw [if_pos hpos]
      obtain ⟨k, f', h1, h2, h3, h4, h5⟩ := read1_at chunk m hc hat hp n (by omega)
      split
      · next e he => rw [h1] at he; cases he
      · next data f2 he =>
        rw [h1] at he
        injection he with he
        injection he with he1 he2
        subst he2
        by_cases hk : k = 0
        · rw [dif_pos (by rw [← he1, hk]; rfl)]
          refine ⟨f', rfl, ?_⟩
          rw [hk] at h5
          have : p + 0 = p + min n.toNat (content.length - p) := by
            rcases Nat.lt_or_ge p content.length with hlt | hge
            · have := h4 hlt; omega
            · omega
          rw [this] at h5
          exact h5
        · have hdl : data.length = k := by
            rw [← he1, List.length_take, List.length_drop]; omega
          rw [dif_neg (by intro h; rw [h] at hdl; exact hk hdl.symm), hdl]
          have := h3 (by omega)
          obtain ⟨f3, e1, e2⟩ := ih (n - k) f' (p + k) (by omega) (by omega) h5 (by omega)
          refine ⟨f3, e1, ?_⟩
          have hq : p + k + min (n - k).toNat (content.length - (p + k)) = p + min n.toNat (content.length - p) := by omega
          rw [hq] at e2
          exact e2
    · rw [if_neg hpos]
      refine ⟨f, rfl, ?_⟩
      have : p = p + min n.toNat (content.length - p) := by omega
      rw [← this]
      exact hat

theorem at_tell {α : Type} {m : Nat} {content : List α} {f : LibFile α} {p : Nat} (h : At m content f p) : f.tell = p := by
  obtain ⟨q, h1, h2, h3⟩ := h.pos
  unfold LibFile.tell
  rw [h1]
  exact h2

theorem at_some {α : Type} {m : Nat} {content : List α} {f : LibFile α} {p : Nat} (h : At m content f p) : f.io.isNone = false := by
  obtain ⟨q, h1, -, -⟩ := h.pos
  rw [h1]; rfl

theorem at_valid {α : Type} {m : Nat} {content : List α} {f : LibFile α} {p : Nat} {entries : List (List α)} (h : At m content f p) :
    f.archive.Valid entries := by
  intro he
  rw [h.eof] at he
  cases he

/-- A seek to a position inside of the member. -/
theorem seek_at {α : Type} (entries : List (List α)) (cacheSize chunk m : Nat) (hc : 0 < chunk) {content : List α}
    (hm : entries[m]? = some content) (hne : content ≠ []) (cache : List (Archive α)) (hv : ∀ a ∈ cache, a.Valid entries)
    {f : LibFile α} {p : Nat} (h : At m content f p) (hp : p ≤ content.length) (o : Int) (w : Whence)
    (h0 : 0 ≤ (BytesIO.mk content p).target o w) (h1 : (BytesIO.mk content p).target o w ≤ content.length) :
    ∃ f' cache', f.seek entries cacheSize chunk m content.length cache o w =
      .ok (((BytesIO.mk content p).target o w).toNat, f', cache') ∧
      At m content f' ((BytesIO.mk content p).target o w).toNat := by
  have htell := at_tell h
  unfold LibFile.seek
  rw [at_some h]
  simp only [Bool.false_eq_true, if_false, htell]
  have htarget : ∀ w : Whence, (match w with | .set => o | .cur => o + (p : Int) | .end_ => o + (content.length : Int)) =
      (BytesIO.mk content p).target o w := by
    intro w
    cases w <;> simp only [BytesIO.target] <;> omega
  rw [htarget]
  generalize (BytesIO.mk content p).target o w = t at *
  by_cases hge : t ≥ p
  · rw [if_pos hge]
    unfold LibFile.skip
    rw [at_some h]
    obtain ⟨f', e1, e2⟩ := skipLoop_at chunk m hc content _ (t - p) f p (Nat.le_refl _) hp h (by omega)
    simp only [Bool.false_eq_true, if_false, e1]
    have hq : p + min (t - (p : Int)).toNat (content.length - p) = t.toNat := by omega
    rw [hq] at e2
    exact ⟨f', cache, by rw [at_tell e2], e2⟩
  · rw [if_neg hge]
    by_cases hin : t ≥ f.bufferOffset ∧ t < f.bufferOffset + f.buffer.length
    · rw [if_pos hin]
      have := at_move h (t.toNat - f.bufferOffset) (by omega)
      have hq : f.bufferOffset + (t.toNat - f.bufferOffset) = t.toNat := by omega
      rw [hq] at this
      exact ⟨_, cache, by rw [at_tell this], this⟩
    · rw [if_neg hin]
      obtain ⟨f1, e1, e2⟩ := openFile_ok entries chunk m content (insert cacheSize cache f.archive) hm hne (by
        intro a ha
        rcases mem_insert ha with ha | rfl
        · exact hv a ha
        · exact at_valid h)
      split
      · next e c' he => rw [he] at e1; cases e1
      · next f2 c' he =>
        rw [he] at e1
        injection e1 with e1
        subst e1
        unfold LibFile.skip
        rw [at_some e2]
        obtain ⟨f', g1, g2⟩ := skipLoop_at chunk m hc content _ (max 0 t) f2 0 (Nat.le_refl _) (Nat.zero_le _) e2 (by omega)
        simp only [Bool.false_eq_true, if_false, g1]
        have hq : 0 + min (max 0 t).toNat (content.length - 0) = t.toNat := by omega
        rw [hq] at g2
        exact ⟨f', c', by rw [at_tell g2], g2⟩

/-- **C64**, provable part: seeks stay inside of the member. Missing: positions behind its end, which are not kept. -/
theorem C64_within_partial {α : Type} (entries : List (List α)) (cacheSize chunk m : Nat) (content : List α)
    (cache : List (Archive α)) (ops : List (List (Archive α) × FileOp)) (hc : 0 < chunk) (hm : entries[m]? = some content)
    (hne : content ≠ []) (hv : ∀ a ∈ cache, a.Valid entries) (hvs : ∀ e ∈ ops, ∀ a ∈ e.1, a.Valid entries)
    (hw : Within (BytesIO.mk content 0) (ops.map (·.2)) = true) : Shows entries cacheSize chunk m content cache ops := by
  obtain ⟨f, h1, h2⟩ := openFile_ok entries chunk m content cache hm hne hv
  refine ⟨f, h1, ?_⟩
  have key : ∀ (ops : List (List (Archive α) × FileOp)) (f : LibFile α) (p : Nat), p ≤ content.length → At m content f p →
      (∀ e ∈ ops, ∀ a ∈ e.1, a.Valid entries) → Within (BytesIO.mk content p) (ops.map (·.2)) = true →
      f.run entries cacheSize chunk m content.length ops = (BytesIO.mk content p).run (ops.map (·.2)) := by
    intro ops
    induction ops with
    | nil => intros; rfl
    | cons e ops ih =>
      intro f p hp hat hvs hw
      obtain ⟨cache, op⟩ := e
      simp only [List.map_cons, Within, Bool.and_eq_true] at hw
      have hvs' := fun e he => hvs e (List.mem_cons_of_mem _ he)
      cases op with
      | read n =>
        obtain ⟨f', e1, e2⟩ := readLoop_at chunk m hc content n p hp _ f 0 (Nat.le_refl _) (by omega) hat (by omega)
        simp only [List.take_zero] at e1
        simp only [LibFile.run, LibFile.step, LibFile.read, e1, List.map_cons, BytesIO.run, BytesIO.step]
        congr 1
        have hlen : p + (if n < 0 then content.length - p else min n.toNat (content.length - p)) =
            p + (if n < 0 then content.drop p else (content.drop p).take n.toNat).length := by
          split <;> simp
        rw [hlen] at e2
        refine ih f' _ ?_ e2 hvs' hw.2
        split <;> simp <;> omega
      | seek o w =>
        have hwt := hw.1
        rw [Bool.and_eq_true, decide_eq_true_eq, decide_eq_true_eq] at hwt
        obtain ⟨f', c', e1, e2⟩ := seek_at entries cacheSize chunk m hc hm hne cache (hvs _ List.mem_cons_self) hat hp o w
          hwt.1 hwt.2
        have hnn : ¬ (BytesIO.mk content p).target o w < 0 := by omega
        simp only [LibFile.run, LibFile.step, e1, List.map_cons, BytesIO.run, BytesIO.step, if_neg hnn]
        have h2 := hw.2
        simp only [BytesIO.step, if_neg hnn] at h2
        rw [Int.toNat_of_nonneg hwt.1]
        congr 1
        exact ih f' _ (by omega) e2 hvs' h2
      | tell =>
        simp only [LibFile.run, LibFile.step, List.map_cons, BytesIO.run, BytesIO.step, at_tell hat]
        congr 1
        exact ih f p hp hat hvs' hw.2
  exact key ops f 0 (Nat.zero_le _) h2 hvs hw

example : Within (BytesIO.mk [1, 2, 3, 4, 5] 0) [.seek 4 .set, .read 1, .seek (-4) .cur, .read 2, .seek 0 .end_, .tell] = true := by
  decide

/-- A member of five bytes in pieces of two, with a half-read archive in the cache. -/
example : (openFile [[9, 9], [8], [1, 2, 3, 4, 5]] 2 2 5 [⟨1, [9], false⟩]).1.toOption.map (fun f =>
    f.run [[9, 9], [8], [1, 2, 3, 4, 5]] 5 2 2 5
      [([], .seek 4 .set), ([], .read 1), ([⟨1, [], false⟩], .seek (-4) .cur), ([], .read 2), ([], .read (-1))]) =
    some [.num 4, .bytes [5], .num 1, .bytes [2, 3], .bytes [4, 5]] := by decide +kernel

/-- C64 is violated: a position behind the end is forgotten. -/
theorem C64_violated : ¬ C64_statement Nat := by
  intro h
  obtain ⟨f, h1, h2⟩ := h [[1]] 5 4 0 [1] [] [([], .seek 3 .set), ([], .seek (-2) .cur), ([], .read 1)] (by decide) rfl
    (by decide) (by simp) (by simp) (by decide)
  have : (openFile [[1]] 4 0 [1].length []).1 = .ok (⟨⟨1, [], false⟩, 0, [1], some 0⟩ : LibFile Nat) := by decide +kernel
  rw [this] at h1
  injection h1 with h1
  subst h1
  exact absurd h2 (by decide +kernel)

/-- **C65** is violated: an empty member cannot be read. -/
theorem C65_violated : ¬ C65_statement Nat := by
  intro h
  obtain ⟨f, h1, h2⟩ := h [[]] 5 4 0 [] 1 (by decide) rfl (by simp)
  have : (openFile [[]] 4 0 ([] : List Nat).length []).1 = .ok (⟨⟨1, [], false⟩, 0, [], none⟩ : LibFile Nat) := by decide +kernel
  rw [this] at h1
  injection h1 with h1
  subst h1
  exact absurd h2 (by decide +kernel)

/-- **C65**: every call but `tell` fails for every empty member. -/
theorem C65_always {α : Type} (entries : List (List α)) (cacheSize chunk m : Nat) (cache : List (Archive α)) (hm : entries[m]? = some [])
    (hv : ∀ a ∈ cache, a.Valid entries) : ∃ f, (openFile entries chunk m 0 cache).1 = .ok f ∧ f.tell = 0 ∧
      (∀ n : Int, n ≠ 0 → f.read chunk 0 n = .error .runtimeError) ∧
      ∀ cache' o w, f.seek entries cacheSize chunk m 0 cache' o w = .error .runtimeError := by
  unfold openFile
  split
  next a cache' h =>
    have hadv : advance entries m a = some ⟨m + 1, [], false⟩ := by
      split at h
      · injection h with h1 _
        subst h1
        exact advance_spec entries m _ [] hm (by intro h; cases h) (Nat.zero_le _)
      · next b rest hb =>
        injection h with h1 _
        subst h1
        obtain ⟨h1, h2, -, -⟩ := take_some hb
        exact advance_spec entries m _ [] hm (hv _ h1) (by omega)
    rw [hadv]
    refine ⟨⟨⟨m + 1, [], false⟩, 0, [], none⟩, rfl, rfl, ?_, ?_⟩
    · intro n hn
      unfold LibFile.read
      rw [LibFile.readLoop, if_pos (by simp; omega)]
      rfl
    · intro cache' o w
      rfl

/-- The cache keeps the newest archives and gives the one that is closest. -/
theorem C64_cache {α : Type} (cacheSize m : Nat) (cache : List (Archive α)) (a : Archive α) :
    (insert cacheSize cache a).length ≤ cacheSize ∧ (∀ b ∈ insert cacheSize cache a, b ∈ cache ∨ b = a) ∧
      (0 < cacheSize → a ∈ insert cacheSize cache a) ∧
      ∀ b rest, take m cache = some (b, rest) → b ∈ cache ∧ b.next < m ∧ (∀ c ∈ cache, c.next < m → c.next ≤ b.next) := by
  refine ⟨insert_length _ _ _, fun b hb => mem_insert hb, ?_, ?_⟩
  · intro hs
    unfold insert
    rw [List.drop_append_of_le_length (by simp; omega)]
    simp
  · intro b rest h
    obtain ⟨h1, h2, -, h4⟩ := take_some h
    exact ⟨h1, h2, h4⟩

end Verif.Libarchive
