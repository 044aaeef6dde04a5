import Verif.Stencil.Props
import Verif.PyLemmas

/-!
# C06, C07: `core/ratarmountcore/SQLiteBlobFile.py`

`WriteSQLiteBlobs` (54-123) stores a byte stream as rows of a table, `SQLiteBlobsFile` (34-51) reads
the rows back in `ROWID` order through a joined view. The table is the list of its rows in `ROWID`
order: SQLite hands out growing row ids for inserts into a table nobody deletes from.
-/

namespace Verif.Stencil

open Verif.Py

/-- `WriteSQLiteBlobs` state: rows of the table, the current blob, `_size` (SQLiteBlobFile.py:54-61). -/
structure BlobWriter (α : Type) where
  rows : List (List α)
  blob : List α
  size : Nat
  deriving DecidableEq, Repr

/-- `_flush_blob` (SQLiteBlobFile.py:63-66). -/
def BlobWriter.flush {α} (w : BlobWriter α) : BlobWriter α :=
  { w with rows := if w.blob.length > 0 then w.rows ++ [w.blob] else w.rows, blob := [] }

/-- `write` (SQLiteBlobFile.py:96-112). `self.blob.write` of `BytesIO` writes everything and returns the length. -/
def BlobWriter.write {α} (blobSize : Int) (w : BlobWriter α) (buffer : List α) : BlobWriter α × Except PyErr Nat :=
  let free : Int := blobSize - w.blob.length                                  -- 97
  let (w, written) :=
    if (buffer.length : Int) < free then
      ({ w with blob := w.blob ++ buffer }, buffer.length)                    -- 100-101
    else
      let a := sliceTo buffer free
      let w := ({ w with blob := w.blob ++ a } : BlobWriter α).flush          -- 103-104
      let b := sliceFrom buffer free
      ({ w with blob := w.blob ++ b }, a.length + b.length)                   -- 105
  let w := { w with size := w.size + written }                                -- 107
  if written ≠ buffer.length then (w, .error .runtimeError) else (w, .ok buffer.length)

/-- Calls on the writer. `flush` stands for leaving the context manager (SQLiteBlobFile.py:71-72) or `close` (SQLiteBlobFile.py:75-76). -/
inductive BOp (α : Type) where
  | write (buffer : List α)
  | flush
  | seek (offset : Int) (whence : Whence)
  | tell
  deriving Repr

/-- Results of calls (SQLiteBlobFile.py:96-123). -/
inductive BOut where
  | num (n : Nat)
  | none
  | err (e : PyErr)
  deriving DecidableEq, Repr

/-- `seek` (SQLiteBlobFile.py:115-119), `tell` (SQLiteBlobFile.py:122-123). -/
def BlobWriter.step {α} (blobSize : Int) (w : BlobWriter α) : BOp α → BlobWriter α × BOut
  | .write b => match w.write blobSize b with
    | (w, .ok n) => (w, .num n)
    | (w, .error e) => (w, .err e)
  | .flush => (w.flush, .none)
  | .seek o wh =>
    if (wh ≠ .set ∧ o = 0) ∨ (wh = .set ∧ o = w.size) then (w, .num w.size) else (w, .err .unsupported)
  | .tell => (w, .num w.size)

/-- The state after calls (SQLiteBlobFile.py:96-123). -/
def BlobWriter.exec {α} (blobSize : Int) (w : BlobWriter α) : List (BOp α) → BlobWriter α × List BOut
  | [] => (w, [])
  | op :: ops =>
    let r := (w.step blobSize op).1.exec blobSize ops
    (r.1, (w.step blobSize op).2 :: r.2)

/-- The file objects of `SQLiteBlobsFile.__init__` (SQLiteBlobFile.py:37-51): one per row. Reading a row through
`substr(column, offset + 1, size)` is an in-memory file by `C05_blob_file`. -/
def rowFiles {α} (rows : List (List α)) : Store α := fun i => ⟨rows[i]?.getD [], 0, false⟩

/-- `JoinedFile` (StenciledFile.py:331-337): every file as a whole, in order. -/
def rowStencils {α} (rows : List (List α)) : List (Nat × Int × Int) :=
  rows.zipIdx.map fun x => (x.2, 0, x.1.length)

/-! ## specification: an append-only byte string -/

/-- The bytes given to `write`, in order. -/
def written {α} : List (BOp α) → List α
  | [] => []
  | .write b :: ops => b ++ written ops
  | _ :: ops => written ops

/-- Results an append-only file with `n` bytes would give. -/
def appendOuts {α} (n : Nat) : List (BOp α) → List BOut
  | [] => []
  | .write b :: ops => .num b.length :: appendOuts (n + b.length) ops
  | .flush :: ops => .none :: appendOuts n ops
  | .seek o wh :: ops =>
    (if (match wh with | .set => o | _ => o + n) = (n : Int) then .num n else .err .unsupported) :: appendOuts n ops
  | .tell :: ops => .num n :: appendOuts n ops

/-! ## proofs -/

theorem flush_content {α} (w : BlobWriter α) : w.flush.rows.flatten ++ w.flush.blob = w.rows.flatten ++ w.blob := by
  unfold BlobWriter.flush
  simp only
  split
  · simp
  · next h => have : w.blob = [] := by cases hb : w.blob <;> simp_all
              simp [this]

theorem write_spec {α} (bs : Int) (w : BlobWriter α) (buf : List α) :
    ∃ w', w.write bs buf = (w', .ok buf.length) ∧ w'.size = w.size + buf.length ∧
      w'.rows.flatten ++ w'.blob = w.rows.flatten ++ w.blob ++ buf := by
  unfold BlobWriter.write
  simp only
  split
  · refine ⟨_, by simp; rfl, rfl, by simp⟩
  · have hs := sliceTo_append_sliceFrom buf (bs - w.blob.length)
    have hl := congrArg List.length hs
    simp only [List.length_append] at hl
    rw [if_neg (by simp; exact hl)]
    refine ⟨_, rfl, ?_, ?_⟩
    · simp only [BlobWriter.flush]; omega
    · simp only
      have hf := flush_content ({ w with blob := w.blob ++ sliceTo buf (bs - w.blob.length) } : BlobWriter α)
      rw [← List.append_assoc, hf]
      simp only
      rw [List.append_assoc, List.append_assoc, hs, List.append_assoc]

theorem exec_spec {α} (bs : Int) (ops : List (BOp α)) : ∀ w : BlobWriter α,
    (w.exec bs ops).2 = appendOuts w.size ops ∧
    (w.exec bs ops).1.rows.flatten ++ (w.exec bs ops).1.blob = w.rows.flatten ++ w.blob ++ written ops := by
  induction ops with
  | nil => intro w; simp [BlobWriter.exec, appendOuts, written]
  | cons op ops ih =>
    intro w
    cases op with
    | write b =>
      obtain ⟨w', hw, hsz, hc⟩ := write_spec bs w b
      simp only [BlobWriter.exec, BlobWriter.step, hw, appendOuts, written]
      obtain ⟨h1, h2⟩ := ih w'
      rw [h1, h2, hsz, hc]; simp
    | flush =>
      simp only [BlobWriter.exec, BlobWriter.step, appendOuts, written]
      obtain ⟨h1, h2⟩ := ih w.flush
      rw [h1, h2, flush_content]; exact ⟨rfl, rfl⟩
    | seek o wh =>
      simp only [BlobWriter.exec, BlobWriter.step, appendOuts, written]
      obtain ⟨h1, h2⟩ := ih w
      cases wh
      · by_cases h : o = w.size <;> simp [h, h1, h2]
      · by_cases h : o = 0
        · subst h; simp [h1, h2]
        · have : ¬ (o + (w.size : Int) = w.size) := by omega
          simp [h, this, h1, h2]
      · by_cases h : o = 0
        · subst h; simp [h1, h2]
        · have : ¬ (o + (w.size : Int) = w.size) := by omega
          simp [h, this, h1, h2]
    | tell =>
      simp only [BlobWriter.exec, BlobWriter.step, appendOuts, written]
      obtain ⟨h1, h2⟩ := ih w
      rw [h1, h2]; exact ⟨rfl, rfl⟩

theorem rows_joined {α} (rows : List (List α)) :
    Inside (rowFiles rows) (rowStencils rows) ∧ joined (rowFiles rows) (rowStencils rows) = rows.flatten := by
  constructor
  · intro s hs
    simp only [rowStencils, List.mem_map] at hs
    obtain ⟨⟨c, i⟩, hm, rfl⟩ := hs
    have := List.mem_zipIdx_iff_getElem?.mp hm
    simp at this
    simp [rowFiles, this]
  · simp only [joined, rowStencils]
    rw [List.flatMap_map]
    have key : ∀ x ∈ rows.zipIdx,
        ((rowFiles rows x.2).content.drop (0 : Int).toNat).take ((x.1.length : Int)).toNat = x.1 := by
      intro x hx
      have := List.mem_zipIdx_iff_getElem?.mp hx
      simp [rowFiles, this]
    have h2 : ∀ (l : List (List α × Nat)), (∀ x ∈ l,
        ((rowFiles rows x.2).content.drop (0 : Int).toNat).take ((x.1.length : Int)).toNat = x.1) →
        l.flatMap (fun x => ((rowFiles rows x.2).content.drop (0 : Int).toNat).take ((x.1.length : Int)).toNat)
          = (l.map (·.1)).flatten := by
      intro l
      induction l with
      | nil => intro _; rfl
      | cons x xs ih =>
        intro h
        rw [List.flatMap_cons, h x (by simp), ih (fun y hy => h y (by simp [hy]))]
        rfl
    rw [h2 _ key, List.zipIdx_map_fst]

/-! ## C06 -/

/-- **C06.** For every blob size, every history of calls on the writer returns what an append-only file
would return, and after the closing flush, reading the rows back gives, under every history of reads and
seeks, exactly the bytes written. -/
theorem C06_blob_roundtrip {α} (blobSize : Int) (ops : List (BOp α)) (reads : List Op)
    (hacc : (MemFile.mk (written ops) 0).accepts reads = true) :
    let w := (BlobWriter.mk [] [] 0).exec blobSize (ops ++ [.flush])
    w.2 = appendOuts 0 (ops ++ [.flush]) ∧
    ∃ r, Raw.init (rowStencils w.1.rows) = .ok r ∧
      run (rowFiles w.1.rows, r) reads = (MemFile.mk (written ops) 0).run reads := by
  intro w
  obtain ⟨h1, h2⟩ := exec_spec blobSize (ops ++ [.flush]) (BlobWriter.mk ([] : List (List α)) [] 0)
  refine ⟨h1, ?_⟩
  have hblob : ∀ (ops : List (BOp α)) (w : BlobWriter α), (w.exec blobSize (ops ++ [.flush])).1.blob = [] := by
    intro ops
    induction ops with
    | nil => intro w; rfl
    | cons op ops ih => intro w; simp only [List.cons_append, BlobWriter.exec]; exact ih _
  have hw : ∀ ops : List (BOp α), written (ops ++ [.flush]) = written ops := by
    intro ops
    induction ops with
    | nil => rfl
    | cons op ops ih => cases op <;> simp [written, ih]
  have hrows : w.1.rows.flatten = written ops := by
    have := h2
    rw [hblob, hw] at this
    simpa using this
  obtain ⟨hin, hj⟩ := rows_joined w.1.rows
  rw [hrows] at hj
  obtain ⟨r, hr, hrun⟩ := C01_stencil_reads_are_slices _ _ hin reads (by rw [hj]; exact hacc)
  exact ⟨r, hr, by rw [hrun, hj]⟩

example : (MemFile.mk (written [BOp.write [1, 2, 3], .tell, .write [4, 5], .flush, .write [6]]) 0).accepts
    [.seek 2 .set, .read 3] = true ∧
  ((BlobWriter.mk [] [] 0).exec 2 [BOp.write [1, 2, 3], .tell, .write [4, 5], .flush, .write [6], .flush]).1.rows
    = [[1, 2], [3, 4], [5], [6]] := by decide

/-! ## C07 -/

/-- The full statement of C07: no stored row is larger than the requested blob size. -/
def C07_statement (α : Type) : Prop :=
  ∀ (blobSize : Nat), 0 < blobSize → ∀ ops : List (BOp α),
    ∀ row ∈ ((BlobWriter.mk [] [] 0).exec blobSize (ops ++ [.flush])).1.rows, row.length ≤ blobSize

/-- **C07 is violated by the code**: one write of five bytes with a blob size of two gives rows of two
and three bytes. -/
theorem C07_violated : ¬ C07_statement Nat := by
  intro h
  have := h 2 (by omega) [.write [1, 2, 3, 4, 5]] [3, 4, 5] (by decide)
  exact absurd this (by decide)

/-- **C07, provable part**: if no single write is larger than the blob size, no row is, and no row
is empty. Missing: writes larger than the blob size. -/
theorem C07_row_bound_partial {α} (blobSize : Nat) (ops : List (BOp α))
    (hw : ∀ b, BOp.write b ∈ ops → b.length ≤ blobSize) :
    ∀ row ∈ ((BlobWriter.mk [] [] 0).exec blobSize ops).1.rows, 0 < row.length ∧ row.length ≤ blobSize := by
  have key : ∀ (ops : List (BOp α)) (w : BlobWriter α), (∀ b, BOp.write b ∈ ops → b.length ≤ blobSize) →
      w.blob.length ≤ blobSize → (∀ row ∈ w.rows, 0 < row.length ∧ row.length ≤ blobSize) →
      ∀ row ∈ (w.exec blobSize ops).1.rows, 0 < row.length ∧ row.length ≤ blobSize := by
    intro ops
    induction ops with
    | nil => intro w _ _ h; exact h
    | cons op ops ih =>
      intro w hops hb hr
      have hops' := fun b hb => hops b (List.mem_cons_of_mem _ hb)
      have hflush : ∀ v : BlobWriter α, v.blob.length ≤ blobSize →
          (∀ row ∈ v.rows, 0 < row.length ∧ row.length ≤ blobSize) →
          ∀ row ∈ v.flush.rows, 0 < row.length ∧ row.length ≤ blobSize := by
        intro v hv hvr row hrow
        unfold BlobWriter.flush at hrow
        simp only at hrow
        split at hrow
        · next hpos =>
          rcases List.mem_append.mp hrow with h | h
          · exact hvr row h
          · rw [List.mem_singleton] at h; subst h; exact ⟨hpos, hv⟩
        · exact hvr row hrow
      simp only [BlobWriter.exec]
      cases op with
      | write b =>
        have hbl := hops b (by simp)
        have hst : ((w.step blobSize (.write b)).1.blob.length ≤ blobSize) ∧
            (∀ row ∈ (w.step blobSize (.write b)).1.rows, 0 < row.length ∧ row.length ≤ blobSize) := by
          obtain ⟨w', hw', -, -⟩ := write_spec blobSize w b
          simp only [BlobWriter.step, hw']
          unfold BlobWriter.write at hw'
          simp only at hw'
          split at hw'
          · next hlt =>
            simp only [ne_eq, not_true_eq_false, if_false] at hw'
            cases hw'
            refine ⟨?_, hr⟩
            simp only [List.length_append]; omega
          · next hge =>
            have hl := congrArg List.length (sliceTo_append_sliceFrom b ((blobSize : Int) - w.blob.length))
            simp only [List.length_append] at hl
            rw [if_neg (by simp; exact hl)] at hw'
            cases hw'
            simp only [BlobWriter.flush, List.nil_append]
            refine ⟨by omega, ?_⟩
            have := hflush ({ w with blob := w.blob ++ sliceTo b ((blobSize : Int) - w.blob.length) } : BlobWriter α)
              (by
                simp only [List.length_append, sliceTo, List.length_take, sliceBound]
                split <;> omega) hr
            exact this
        exact ih _ hops' hst.1 hst.2
      | flush => exact ih _ hops' (by simp [BlobWriter.step, BlobWriter.flush]) (hflush w hb hr)
      | seek o wh =>
        simp only [BlobWriter.step]
        split
        · exact ih _ hops' hb hr
        · exact ih _ hops' hb hr
      | tell => exact ih _ hops' hb hr
  exact key ops _ hw (by simp) (by simp)

example : ∀ b, BOp.write b ∈ [BOp.write [1, 2], .flush, .write [3]] → b.length ≤ 2 := by
  intro b hb; simp at hb; rcases hb with rfl | rfl <;> decide

end Verif.Stencil
