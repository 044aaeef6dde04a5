import Verif.Stencil.Lemmas
import Verif.FileSpec

/-!
# `core/ratarmountcore/StenciledFile.py`: `RawJoinedFileFromFactory` (179-315), `LambdaReaderFile`
(355-411), `ZeroFile` (414-418), and `FixedRawIOBase.readall` (utils.py:291-302)

A factory is represented by the content of the file it opens: every call gives a fresh file object at
position 0. Simplification: all factories succeed, all files are readable and seekable; `close` is not
modelled (a cached file object is never closed before it is replaced (StenciledFile.py:227-228)).
-/

namespace Verif.Stencil

open Verif.Py Verif.FileSpec

/-! ## `RawJoinedFileFromFactory` -/

/-- State: the contents behind the factories with size > 0, their cumulative sizes, the position and
the cached file object (index and its position) (StenciledFile.py:179-213). -/
structure Lazy (α : Type) where
  offset : Int
  factories : List (List α)
  cumsizes : List Int
  fileObject : Option (Nat × Nat)

/-- `__init__` (StenciledFile.py:188-213): empty files are dropped. -/
def Lazy.init {α} (parts : List (List α)) : Lazy α :=
  let sel := parts.filter (fun c => 0 < c.length)
  { offset := 0, factories := sel, cumsizes := cumulate 0 (sel.map List.length), fileObject := none }

/-- `_find_stencil` (StenciledFile.py:215-221). -/
def Lazy.findStencil {α} (l : Lazy α) (offset : Int) : Except PyErr Nat :=
  if offset < 0 then .error .assertionError
  else
    let i : Int := (bisectLeft l.cumsizes (offset + 1) : Int) - 1
    if i < 0 then .error .assertionError else .ok i.toNat

/-- `_get_file_object` (StenciledFile.py:223-229): the position of the cached or freshly opened file object. -/
def Lazy.getFileObject {α} (l : Lazy α) (index : Nat) : Lazy α × Nat :=
  match l.fileObject with
  | some (i, pos) => if i = index then (l, pos) else ({ l with fileObject := some (index, 0) }, 0)
  | none => ({ l with fileObject := some (index, 0) }, 0)

/-- The content of the open file object (StenciledFile.py:223-229): that of the factory which opened it. -/
def Lazy.opened {α} (l : Lazy α) : List α :=
  match l.fileObject with
  | some (i, _) => l.factories[i]?.getD []
  | none => []

/-- `fileObject.read(n)` of a plain file at `pos`; a negative `n` reads to the end (used at StenciledFile.py:263-294). -/
def plainRead {α} (content : List α) (pos : Nat) (n : Int) : List α :=
  if n < 0 then content.drop pos else (content.drop pos).take n.toNat

/-- `read(size)` (StenciledFile.py:263-294): reads from one part only. -/
def Lazy.read {α} (l : Lazy α) (size : Int) : Lazy α × Except PyErr (List α) :=
  let size := if size = -1 then (l.cumsizes.getLast?.getD 0) - l.offset else size  -- 265-266
  match l.findStencil l.offset with                                                -- 271
  | .error e => (l, .error e)
  | .ok i =>
    match l.factories[i]?, l.cumsizes[i]? with
    | none, _ => (l, .ok [])                                                       -- 272-273
    | some _, none => (l, .error .indexError)
    | some content, some c =>
      let l := (l.getFileObject i).1                                               -- 276
      let inside := l.offset - c                                                   -- 283
      if inside < 0 then (l, .error .assertionError)                               -- 284
      else if inside ≥ content.length then (l, .error .assertionError)             -- 285
      else
        let readable := min size (content.length - inside)                         -- 289
        let tmp := plainRead l.opened inside.toNat readable                        -- 286, 290
        ({ l with offset := l.offset + tmp.length,
                  fileObject := some (i, inside.toNat + tmp.length) }, .ok tmp)    -- 291-294

/-- `seek` (StenciledFile.py:297-311): negative targets are clamped to 0. -/
def Lazy.seek {α} (l : Lazy α) (offset : Int) (whence : Whence) : Lazy α × Int :=
  let new := match whence with
    | .cur => l.offset + offset
    | .end_ => (l.cumsizes.getLast?.getD 0) + offset
    | .set => offset
  let new := max new 0
  ({ l with offset := new }, new)

/-- One call (StenciledFile.py:263-315). -/
def Lazy.step {α} (l : Lazy α) : FileOp → Lazy α × FileOut α
  | .read n => match l.read n with
    | (l, .ok b) => (l, .bytes b)
    | (l, .error e) => (l, .err e)
  | .seek o w => ((l.seek o w).1, .num (l.seek o w).2)
  | .tell => (l, .num l.offset)                                                    -- 313-315

/-- Calls together with their results (StenciledFile.py:263-315). -/
def Lazy.trace {α} (l : Lazy α) : List FileOp → List (FileOp × FileOut α)
  | [] => []
  | op :: ops => (op, (l.step op).2) :: (l.step op).1.trace ops

/-- `io.RawIOBase.readall` of the Python library, which this class inherits: `read(chunk)` until
nothing comes back (StenciledFile.py:179). `fuel` bounds the number of calls. -/
def Lazy.readall {α} (l : Lazy α) (chunk : Nat) : Nat → Option (List α)
  | 0 => none
  | fuel + 1 =>
    match l.read chunk with
    | (_, .error _) => none
    | (_, .ok []) => some []
    | (l, .ok (b :: bs)) => (l.readall chunk fuel).map ((b :: bs) ++ ·)

/-! ## lemmas -/

structure LazyWF {α} (l : Lazy α) : Prop where
  cum : l.cumsizes = cumulate 0 (l.factories.map List.length)
  pos : ∀ c ∈ l.factories, 0 < c.length

theorem LazyWF.total {α} {l : Lazy α} (h : LazyWF l) :
    l.cumsizes.getLast?.getD 0 = (l.factories.flatten.length : Nat) := by
  rw [h.cum, cumulate_last, List.length_flatten]; omega

theorem lazy_find {α} {l : Lazy α} (h : LazyWF l) (p : Nat) :
    ∃ i, l.findStencil p = .ok i ∧ i ≤ l.factories.length ∧
      ((l.factories.map List.length).take i).sum ≤ p ∧
      (∀ hi : i < l.factories.length, p < ((l.factories.map List.length).take i).sum + l.factories[i].length) := by
  let st : Store α := fun i => ⟨l.factories[i]?.getD [], 0, false⟩
  let r : Raw := { offset := 0, stencils := l.factories.zipIdx.map (fun x => (x.2, 0, x.1.length)), cumsizes := l.cumsizes }
  have hmap : r.stencils.map (·.2.2) = l.factories.map List.length := by
    simp only [r, List.map_map]
    apply List.ext_getElem
    · simp
    · intro i h1 h2; simp
  have hwf : WF st r := by
    refine ⟨?_, ?_, ?_⟩
    · rw [hmap]; exact h.cum
    · intro s hs
      simp only [r, List.mem_map] at hs
      obtain ⟨⟨c, i⟩, hm, rfl⟩ := hs
      have := List.fst_mem_of_mem_zipIdx hm
      exact h.pos _ this
    · intro s hs
      simp only [r, List.mem_map] at hs
      obtain ⟨⟨c, i⟩, hm, rfl⟩ := hs
      have := List.mem_zipIdx_iff_getElem?.mp hm
      simp only [Valid, st]
      simp at this
      simp [this]
  obtain ⟨i, h1, h2, h3, h4⟩ := findStencil_spec hwf p
  refine ⟨i, h1, by simpa [r] using h2, by rw [hmap] at h3; exact h3, ?_⟩
  intro hi
  have := h4 (by simpa [r] using hi)
  rw [hmap] at this
  simpa [r] using this

theorem flatten_drop {α} (ls : List (List α)) (i : Nat) (hi : i < ls.length) (k : Nat) (hk : k ≤ ls[i].length) :
    ls.flatten.drop (((ls.map List.length).take i).sum + k) = ls[i].drop k ++ (ls.drop (i + 1)).flatten := by
  induction ls generalizing i with
  | nil => simp at hi
  | cons s ss ih =>
    cases i with
    | zero =>
      simp only [List.take_zero, List.sum_nil, Nat.zero_add, List.getElem_cons_zero,
        List.flatten_cons, List.drop_succ_cons, List.drop_zero] at *
      rw [List.drop_append_of_le_length (by omega)]
    | succ i =>
      simp only [List.map_cons, List.take_succ_cons, List.sum_cons, List.getElem_cons_succ,
        List.flatten_cons, List.drop_succ_cons] at *
      rw [← ih i (by simpa using hi) hk]
      rw [Nat.add_assoc, List.drop_length_add_append]

theorem getFileObject_fields {α} (l : Lazy α) (i : Nat) :
    (l.getFileObject i).1.offset = l.offset ∧ (l.getFileObject i).1.factories = l.factories ∧
      (l.getFileObject i).1.cumsizes = l.cumsizes := by
  unfold Lazy.getFileObject
  split
  · split <;> exact ⟨rfl, rfl, rfl⟩
  · exact ⟨rfl, rfl, rfl⟩

/-- The open file object is the one of the part that is read. -/
theorem getFileObject_opened {α} (l : Lazy α) (i : Nat) (h : i < l.factories.length) : (l.getFileObject i).1.opened = l.factories[i] := by
  have h1 : (l.getFileObject i).1.fileObject.map Prod.fst = some i := by
    unfold Lazy.getFileObject
    split
    · next j pos hf =>
      split
      · next hj => rw [hf]; simp [hj]
      · rfl
    · rfl
  unfold Lazy.opened
  cases hf : (l.getFileObject i).1.fileObject with
  | none => rw [hf] at h1; cases h1
  | some x =>
    obtain ⟨j, pos⟩ := x
    rw [hf] at h1
    simp only [Option.map_some, Option.some.injEq] at h1
    subst h1
    simp only
    rw [(getFileObject_fields l j).2.1, List.getElem?_eq_getElem h]
    rfl

/-- One read of the joined file. -/
theorem lazy_read_spec {α} {l : Lazy α} (h : LazyWF l) (p : Nat) (hp : l.offset = p) (n : Int) :
    ∃ l' b, l.read n = (l', .ok b) ∧ LazyWF l' ∧ l'.factories = l.factories ∧
      l'.offset = (p + b.length : Nat) ∧ b <+: l.factories.flatten.drop p ∧
      (0 ≤ n → b.length ≤ n.toNat) ∧ (b = [] → n ≠ 0 → l.factories.flatten.length ≤ p) := by
  obtain ⟨i, hf, hi, hlo, hhi⟩ := lazy_find h p
  unfold Lazy.read
  simp only
  rw [hp, hf]
  simp only
  rcases Nat.lt_or_ge i l.factories.length with hlt | hge
  · have hc : l.cumsizes[i]? = some ((((l.factories.map List.length).take i).sum : Nat) : Int) := by
      rw [h.cum, List.getElem?_eq_getElem (by rw [cumulate_length]; simp; omega), cumulate_getElem]
      simp
    rw [List.getElem?_eq_getElem hlt, hc]
    simp only
    obtain ⟨g1, g2, g3⟩ := getFileObject_fields l i
    rw [getFileObject_opened l i hlt]
    have hhi' := hhi hlt
    have hd := flatten_drop l.factories i hlt (p - ((l.factories.map List.length).take i).sum) (by omega)
    rw [show ((l.factories.map List.length).take i).sum + (p - ((l.factories.map List.length).take i).sum) = p by omega] at hd
    generalize hT : ((l.factories.map List.length).take i).sum = T at *
    generalize hcn : l.factories[i] = content at *
    rw [g1, hp]
    rw [if_neg (by omega), if_neg (by omega)]
    have hin : ((p : Int) - (T : Int)).toNat = p - T := by omega
    rw [hin]
    have htot := h.total
    have hlen := congrArg List.length hd
    simp only [List.length_drop, List.length_append] at hlen
    have hsz1 : n = -1 → (if n = -1 then l.cumsizes.getLast?.getD 0 - (p : Int) else n)
        = (l.factories.flatten.length : Int) - p := by
      intro h1; rw [if_pos h1, htot]
    have hsz2 : n ≠ -1 → (if n = -1 then l.cumsizes.getLast?.getD 0 - (p : Int) else n) = n := by
      intro h1; rw [if_neg h1]
    generalize (if n = -1 then l.cumsizes.getLast?.getD 0 - (p : Int) else n) = sz at *
    generalize hb : plainRead content (p - T) _ = b
    have hpre : b <+: content.drop (p - T) := by
      rw [← hb]; unfold plainRead; split
      · exact List.prefix_rfl
      · exact List.take_prefix _ _
    refine ⟨_, b, rfl, ⟨by simp only [g2, g3]; exact h.cum, by simp only [g2]; exact h.pos⟩, g2, by simp, ?_, ?_, ?_⟩
    · rw [hd]; exact hpre.trans (List.prefix_append _ _)
    · intro hn
      rw [← hb]; unfold plainRead
      rw [hsz2 (by omega)]
      split
      · omega
      · simp; omega
    · intro hbe hn
      exfalso
      rw [← hb] at hbe
      unfold plainRead at hbe
      split at hbe
      · have := congrArg List.length hbe; simp only [List.length_drop, List.length_nil] at this; omega
      · have hl2 := congrArg List.length hbe
        simp only [List.length_take, List.length_drop, List.length_nil] at hl2
        by_cases h1 : n = -1
        · rw [hsz1 h1] at hl2; omega
        · rw [hsz2 h1] at hl2
          rename_i hneg
          rw [hsz2 h1] at hneg
          omega
  · rw [List.getElem?_eq_none hge]
    simp only
    refine ⟨l, [], rfl, h, rfl, by simpa using hp, List.nil_prefix, by simp, ?_⟩
    intro _ _
    rw [List.length_flatten]
    rw [List.take_of_length_le (by simpa using hge)] at hlo
    exact hlo

/-! ## C03 -/

/-- Specification: what a caller may rely on for calls on a lazily joined file at position `p`. Every
read returns bytes that continue the content, not more than asked for, and nothing only at the end (or
when asked for nothing); seeks before the start go to the start. -/
def ContinuesContent {α} (content : List α) : Nat → List (FileOp × FileOut α) → Prop
  | _, [] => True
  | p, (.read n, out) :: rest =>
    ∃ b, out = .bytes b ∧ b <+: content.drop p ∧ (0 ≤ n → b.length ≤ n.toNat) ∧
      (b = [] → n ≠ 0 → content.length ≤ p) ∧ ContinuesContent content (p + b.length) rest
  | p, (.seek o w, out) :: rest =>
    let t := max 0 (match w with | .set => o | .cur => p + o | .end_ => content.length + o)
    out = .num t ∧ ContinuesContent content t.toNat rest
  | p, (.tell, out) :: rest => out = .num p ∧ ContinuesContent content p rest

theorem lazy_init_wf {α} (parts : List (List α)) :
    LazyWF (Lazy.init parts) ∧ (Lazy.init parts).factories.flatten = parts.flatten := by
  refine ⟨⟨rfl, ?_⟩, ?_⟩
  · intro c hc; simp [Lazy.init] at hc; exact hc.2
  · simp only [Lazy.init]
    induction parts with
    | nil => rfl
    | cons c cs ih =>
      rw [List.filter_cons]
      split
      · simp [ih]
      · next hz =>
        have : c = [] := by
          cases c with
          | nil => rfl
          | cons => simp at hz
        simp [this, ih]

/-- **C03.** For every list of parts and every history of calls, a lazily joined file hands out the
concatenation of the parts in order, without skipping, repeating or reordering bytes, and returns
nothing only at the end. -/
theorem C03_joined_history {α} (parts : List (List α)) (ops : List FileOp) :
    ContinuesContent parts.flatten 0 ((Lazy.init parts).trace ops) := by
  have key : ∀ (ops : List FileOp) (l : Lazy α) (p : Nat), LazyWF l → l.offset = p →
      ContinuesContent l.factories.flatten p (l.trace ops) := by
    intro ops
    induction ops with
    | nil => intros; trivial
    | cons op ops ih =>
      intro l p h hp
      cases op with
      | read n =>
        obtain ⟨l', b, hr, hwf, hfac, hoff, hpre, hle, hend⟩ := lazy_read_spec h p hp n
        simp only [Lazy.trace, Lazy.step, hr, ContinuesContent]
        refine ⟨b, rfl, hpre, hle, hend, ?_⟩
        have := ih l' (p + b.length) hwf hoff
        rw [hfac] at this
        exact this
      | seek o w =>
        simp only [Lazy.trace, Lazy.step, ContinuesContent]
        have ht : (l.seek o w).2 = max 0 (match w with
            | .set => o | .cur => p + o | .end_ => l.factories.flatten.length + o) := by
          cases w <;> simp only [Lazy.seek, hp, h.total] <;> omega
        refine ⟨by rw [ht], ?_⟩
        rw [← ht]
        refine ih (l.seek o w).1 _ ⟨h.cum, h.pos⟩ ?_
        simp only [Lazy.seek]
        omega
      | tell =>
        simp only [Lazy.trace, Lazy.step, ContinuesContent]
        exact ⟨by rw [hp], ih l p h hp⟩
  have h := lazy_init_wf parts
  rw [← h.2]
  exact key ops _ 0 h.1 rfl

example : (Lazy.init [[1, 2], [], [3]]).trace [.read 5, .read (-1), .seek (-9) .cur, .read 1]
    = [(.read 5, .bytes [1, 2]), (.read (-1), .bytes [3]), (.seek (-9) .cur, .num 0), (.read 1, .bytes [1])] := by
  decide +kernel

/-- **C03, reading to the end.** Reading chunks of any positive size until nothing comes back gives
exactly the concatenation of the parts from the position `seek` was called with. -/
theorem C03_readall {α} (parts : List (List α)) (p chunk : Nat) (hc : 0 < chunk) (fuel : Nat)
    (hf : parts.flatten.length - p < fuel) :
    ((Lazy.init parts).seek p .set).1.readall chunk fuel = some (parts.flatten.drop p) := by
  have key : ∀ (fuel : Nat) (l : Lazy α) (p : Nat), LazyWF l → l.offset = p →
      l.factories.flatten.length - p < fuel → l.readall chunk fuel = some (l.factories.flatten.drop p) := by
    intro fuel
    induction fuel with
    | zero => intro l p _ _ h; omega
    | succ fuel ih =>
      intro l p h hp hfu
      obtain ⟨l', b, hr, hwf, hfac, hoff, hpre, hle, hend⟩ := lazy_read_spec h p hp chunk
      simp only [Lazy.readall, hr]
      cases b with
      | nil =>
        have := hend rfl (by omega)
        simp only
        rw [List.drop_of_length_le this]
      | cons x xs =>
        simp only
        obtain ⟨rest, hrest⟩ := hpre
        have hlen := congrArg List.length hrest
        simp only [List.length_append, List.length_drop, List.length_cons] at hlen
        rw [ih l' _ hwf hoff (by rw [hfac, List.length_cons]; omega), hfac]
        simp only [Option.map_some, ← hrest]
        congr 2
        rw [← List.drop_drop, ← hrest]; simp
  have h := lazy_init_wf parts
  have := key fuel ((Lazy.init parts).seek p .set).1 p ⟨h.1.cum, h.1.pos⟩ (by simp [Lazy.seek])
    (by simp only [Lazy.seek]; rw [h.2]; exact hf)
  rw [this]; simp only [Lazy.seek]; rw [h.2]

example : 0 < 2 ∧ ([[1, 2], [3, 4, 5]].flatten.length - 1 < 10) := by decide

/-! ## `LambdaReaderFile`, `ZeroFile` -/

/-- `LambdaReaderFile` (StenciledFile.py:355-411): position, size and the read function. -/
structure Lambda (α : Type) where
  offset : Int
  size : Nat
  rawRead : Int → Int → List α

/-- `read(size)` (StenciledFile.py:388-391). -/
def Lambda.read {α} (l : Lambda α) (size : Int) : Lambda α × List α :=
  let n := min (if size < 0 then (l.size : Int) else size) (max 0 ((l.size : Int) - l.offset))
  let result := l.rawRead l.offset n
  ({ l with offset := l.offset + result.length }, result)

/-- `seek` (StenciledFile.py:394-407). -/
def Lambda.seek {α} (l : Lambda α) (offset : Int) (whence : Whence) : Lambda α × Except PyErr Int :=
  let new := match whence with
    | .cur => l.offset + offset
    | .end_ => (l.size : Int) + offset
    | .set => offset
  ({ l with offset := new }, if new < 0 then .error .valueError else .ok new)

/-- One call (StenciledFile.py:388-411). -/
def Lambda.step {α} (l : Lambda α) : FileOp → Lambda α × FileOut α
  | .read n => ((l.read n).1, .bytes (l.read n).2)
  | .seek o w => match l.seek o w with
    | (l, .ok n) => (l, .num n)
    | (l, .error e) => (l, .err e)
  | .tell => (l, .num l.offset)                                                    -- 410-411

/-- Calls one after the other (StenciledFile.py:388-411). -/
def Lambda.run {α} (l : Lambda α) : List FileOp → List (FileOut α)
  | [] => []
  | op :: ops => (l.step op).2 :: (l.step op).1.run ops

/-- `ZeroFile(size)` (StenciledFile.py:414-418). -/
def zeroFile (size : Nat) : Lambda UInt8 :=
  { offset := 0, size := size, rawRead := fun _ n => List.replicate n.toNat 0 }

/-- `SQLiteBlobFile` (SQLiteBlobFile.py:11-31): `substr(column, offset + 1, size)` of one blob. SQLite
counts from 1, so for `offset ≥ 0` this is the part of the blob from `offset`; a negative `offset`
counts from the end of the blob there and is not used by accepted histories. -/
def blobFile {α} (blob : List α) : Lambda α :=
  { offset := 0, size := blob.length, rawRead := fun o n => (blob.drop o.toNat).take n.toNat }

/-- **C05.** A function-backed file whose function serves `content` behaves like the in-memory file, under
every history of accepted calls. -/
theorem C05_lambda_reader {α} (content : List α) (rawRead : Int → Int → List α)
    (hraw : ∀ o n : Nat, (o + n ≤ content.length ∨ n = 0) → rawRead o n = (content.drop o).take n)
    (ops : List FileOp) (hacc : (BytesIO.mk content 0).accepts ops = true) :
    (Lambda.mk 0 content.length rawRead).run ops = (BytesIO.mk content 0).run ops := by
  have key : ∀ (ops : List FileOp) (p : Nat), (BytesIO.mk content p).accepts ops = true →
      (Lambda.mk (p : Int) content.length rawRead).run ops = (BytesIO.mk content p).run ops := by
    intro ops
    induction ops with
    | nil => intros; rfl
    | cons op ops ih =>
      intro p hacc
      simp only [BytesIO.accepts, Bool.and_eq_true] at hacc
      cases op with
      | read n =>
        have hn : min (if n < 0 then (content.length : Int) else n) (max 0 ((content.length : Int) - p))
            = ((min (if n < 0 then content.length else n.toNat) (content.length - p) : Nat) : Int) := by
          split <;> omega
        have hres : (Lambda.mk (p : Int) content.length rawRead).read n
            = (Lambda.mk ((p + (if n < 0 then content.drop p else (content.drop p).take n.toNat).length : Nat) : Int)
                content.length rawRead, if n < 0 then content.drop p else (content.drop p).take n.toNat) := by
          simp only [Lambda.read, hn]
          rw [hraw _ _ (by omega)]
          have hd : (content.drop p).take (min (if n < 0 then content.length else n.toNat) (content.length - p))
              = if n < 0 then content.drop p else (content.drop p).take n.toNat := by
            split
            · rw [List.take_of_length_le (by simp)]
            · rcases Nat.le_total n.toNat (content.length - p) with h1 | h1
              · rw [Nat.min_eq_left h1]
              · rw [Nat.min_eq_right h1, List.take_of_length_le (by simp), List.take_of_length_le (by simp; omega)]
          rw [hd]; simp
        simp only [Lambda.run, Lambda.step, hres, BytesIO.run, BytesIO.step]
        congr 1
        exact ih _ (by simpa [BytesIO.step] using hacc.2)
      | seek o w =>
        have hnn : 0 ≤ (BytesIO.mk content p).target o w := by simpa using hacc.1
        have hsk : (Lambda.mk (p : Int) content.length rawRead).seek o w
            = (Lambda.mk ((BytesIO.mk content p).target o w) content.length rawRead,
               .ok ((BytesIO.mk content p).target o w)) := by
          cases w <;> simp only [Lambda.seek, BytesIO.target] at hnn ⊢ <;> rw [if_neg (by omega)]
        have hsk2 : (BytesIO.mk content p).step (.seek o w)
            = (BytesIO.mk content ((BytesIO.mk content p).target o w).toNat, .num ((BytesIO.mk content p).target o w)) := by
          simp only [BytesIO.step]; rw [if_neg (by omega)]
        have hacc2 := hacc.2
        rw [hsk2] at hacc2
        have hl : (Lambda.mk (p : Int) content.length rawRead).step (.seek o w)
            = (Lambda.mk ((BytesIO.mk content p).target o w) content.length rawRead,
               .num ((BytesIO.mk content p).target o w)) := by
          simp only [Lambda.step, hsk]
        simp only [Lambda.run, BytesIO.run, hl, hsk2]
        congr 1
        have := ih _ hacc2
        rwa [Int.toNat_of_nonneg hnn] at this
      | tell =>
        simp only [Lambda.run, Lambda.step, BytesIO.run, BytesIO.step]
        congr 1
        exact ih p (by simpa [BytesIO.step] using hacc.2)
  exact key ops 0 hacc

/-- **C05** for the file of zeros. -/
theorem C05_zero_file (size : Nat) (ops : List FileOp)
    (hacc : (BytesIO.mk (List.replicate size (0 : UInt8)) 0).accepts ops = true) :
    (zeroFile size).run ops = (BytesIO.mk (List.replicate size 0) 0).run ops := by
  have := C05_lambda_reader (List.replicate size (0 : UInt8)) (fun _ n => List.replicate n.toNat 0) (by
    intro o n h
    simp only [List.length_replicate] at h
    simp only [Int.toNat_natCast, List.drop_replicate, List.take_replicate]
    congr 1; omega) ops hacc
  simpa [zeroFile] using this

/-- **C05** for a file over one stored blob. -/
theorem C05_blob_file {α} (blob : List α) (ops : List FileOp)
    (hacc : (BytesIO.mk blob 0).accepts ops = true) :
    (blobFile blob).run ops = (BytesIO.mk blob 0).run ops :=
  C05_lambda_reader blob _ (by intro o n _; simp) ops hacc

example : (BytesIO.mk (List.replicate 5 (0 : UInt8)) 0).accepts
    [.read 2, .seek 7 .set, .read (-1), .seek (-3) .end_, .read 9] = true ∧
  (BytesIO.mk (List.replicate 5 (0 : UInt8)) 0).run
    [.read 2, .seek 7 .set, .read (-1), .seek (-3) .end_, .read 9]
    = [.bytes [0, 0], .num 7, .bytes [], .num 2, .bytes [0, 0, 0]] := by decide

end Verif.Stencil
