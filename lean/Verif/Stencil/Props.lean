import Verif.Stencil.Lemmas

/-!
# C01, C02: stenciled views

Specification: a byte string with a position, independent of ranges, bisection and
underlying file positions.
-/

namespace Verif.Stencil

open Verif.Py

/-! ## specification -/

/-- An in-memory read-only file. -/
structure MemFile (α : Type) where
  content : List α
  pos : Nat

/-- Where a seek leads to; may be negative. -/
def MemFile.target {α} (m : MemFile α) (offset : Int) : Whence → Int
  | .set => offset
  | .cur => m.pos + offset
  | .end_ => m.content.length + offset

/-- `read(-1)` returns all that is left, `read(n)` at most `n` bytes of it (nothing for other
negative `n`), `seek` moves, `tell` reports. -/
def MemFile.step {α} (m : MemFile α) : Op → MemFile α × Out α
  | .read n =>
    let left := m.content.drop m.pos
    let data := if n = -1 then left else left.take n.toNat
    ({ m with pos := m.pos + data.length }, .bytes data)
  | .seek o w =>
    if m.target o w < 0 then (m, .err .valueError)
    else ({ m with pos := (m.target o w).toNat }, .num (m.target o w))
  | .tell => (m, .num m.pos)
  | .other _ _ => (m, .none)

def MemFile.run {α} (m : MemFile α) : List Op → List (Out α)
  | [] => []
  | op :: ops => (m.step op).2 :: (m.step op).1.run ops

/-- No seek of the history is rejected. -/
def MemFile.accepts {α} (m : MemFile α) : List Op → Bool
  | [] => true
  | op :: ops =>
    (match op with | .seek o w => decide (0 ≤ m.target o w) | _ => true) && (m.step op).1.accepts ops

/-- The bytes the given ranges of the given files stand for. -/
def joined {α} (st : Store α) (fileStencils : List (Nat × Int × Int)) : List α :=
  fileStencils.flatMap fun s => ((st s.1).content.drop s.2.1.toNat).take s.2.2.toNat

/-- The ranges are non-negative, lie inside their files, and the files are open. -/
def Inside {α} (st : Store α) (fileStencils : List (Nat × Int × Int)) : Prop :=
  ∀ s ∈ fileStencils, 0 ≤ s.2.1 ∧ 0 ≤ s.2.2 ∧
    s.2.1 + s.2.2 ≤ (st s.1).content.length ∧ (st s.1).closed = false

/-! ## connection -/

theorem init_ok {α} (st : Store α) (ss : List (Nat × Int × Int)) (h : Inside st ss) :
    ∃ r, Raw.init ss = .ok r ∧ r.offset = 0 ∧ WF st r ∧ pieces st r.stencils = joined st ss := by
  unfold Raw.init
  rw [if_neg (by simp; intro a b c hm; exact (h _ hm).1),
    if_neg (by simp; intro a b c hm; exact (h _ hm).2.1)]
  refine ⟨_, rfl, rfl, ⟨rfl, ?_, ?_⟩, ?_⟩
  · intro s hs
    simp only [List.mem_map, List.mem_filter] at hs
    obtain ⟨t, ⟨_, ht⟩, rfl⟩ := hs
    simp at ht ⊢; omega
  · intro s hs
    simp only [List.mem_map, List.mem_filter] at hs
    obtain ⟨t, ⟨hm, ht⟩, rfl⟩ := hs
    obtain ⟨h1, h2, h3, h4⟩ := h _ hm
    refine ⟨?_, h4⟩
    simp only; omega
  · simp only [joined, pieces]
    clear h
    induction ss with
    | nil => rfl
    | cons s ss ih =>
      simp only [List.flatMap_cons, List.filter_cons]
      split
      · simp only [List.map_cons, List.flatMap_cons, ih]; rfl
      · next hz =>
        rw [ih]
        have : s.2.2.toNat = 0 := by simp at hz; omega
        simp [this]

theorem step_ok {α} {st : Store α} {r : Raw} (h : WF st r) (p : Nat) (hp : r.offset = p) (op : Op)
    (hacc : (match op with
      | .seek o w => decide (0 ≤ (MemFile.mk (pieces st r.stencils) p).target o w) | _ => true) = true) :
    ∃ st', step (st, r) op = ((st', { r with
          offset := (((MemFile.mk (pieces st r.stencils) p).step op).1.pos : Nat) }),
        ((MemFile.mk (pieces st r.stencils) p).step op).2) ∧ SameData st' st ∧
      ((MemFile.mk (pieces st r.stencils) p).step op).1.content = pieces st r.stencils := by
  cases op with
  | read n =>
    obtain ⟨st', hr, hsd⟩ := read_spec h p hp n
    exact ⟨st', by simp only [step, hr, MemFile.step], hsd, rfl⟩
  | seek o w =>
    simp only [decide_eq_true_eq] at hacc
    have heq : r.target o w = (MemFile.mk (pieces st r.stencils) p).target o w := by
      cases w <;> simp [MemFile.target, Raw.target, hp, h.total]
    refine ⟨st, ?_, SameData.refl _, ?_⟩
    · simp only [step, MemFile.step, Raw.seek, heq]
      rw [if_neg (by omega), if_neg (by omega)]
      simp only
      rw [Int.toNat_of_nonneg hacc]
    · simp only [MemFile.step]; rw [if_neg (by omega)]
  | tell => exact ⟨st, by simp [step, MemFile.step, Raw.tell, ← hp], SameData.refl _, rfl⟩
  | other f q => exact ⟨st.seek f q, by simp [step, MemFile.step, ← hp], sameData_seek _ _ _, rfl⟩

theorem run_ok {α} (ops : List Op) : ∀ {st : Store α} {r : Raw} (_ : WF st r) (p : Nat) (_ : r.offset = p)
    (_ : (MemFile.mk (pieces st r.stencils) p).accepts ops = true),
    run (st, r) ops = (MemFile.mk (pieces st r.stencils) p).run ops := by
  induction ops with
  | nil => intros; rfl
  | cons op ops ih =>
    intro st r h p hp hacc
    simp only [MemFile.accepts, Bool.and_eq_true] at hacc
    obtain ⟨st', hs, hsd, hcont⟩ := step_ok h p hp op hacc.1
    simp only [run, MemFile.run]
    rw [hs]
    simp only
    congr 1
    have hm : ((MemFile.mk (pieces st r.stencils) p).step op).1
        = MemFile.mk (pieces st' r.stencils) ((MemFile.mk (pieces st r.stencils) p).step op).1.pos := by
      rw [hsd.pieces]
      generalize (MemFile.mk (pieces st r.stencils) p).step op = x at hcont
      obtain ⟨⟨c, q⟩, o⟩ := x
      simp only at hcont; rw [hcont]
    rw [hm]
    apply ih ((h.same hsd).offset _)
    · rfl
    · rw [← hm]; exact hacc.2

theorem seek_step {α} (st : Store α) (r : Raw) (o : Int) (w : Whence) :
    ∃ o', (step (st, r) (.seek o w)).1 = (st, { r with offset := o' }) := by
  unfold step Raw.seek
  by_cases h : r.target o w < 0
  · simp only [if_pos h]; exact ⟨_, rfl⟩
  · simp only [if_neg h]; exact ⟨_, rfl⟩

/-! ## C01 -/

/-- **C01.** A view of ranges inside open files behaves, under every history of accepted calls
and whatever others do to the positions of the underlying files in between, like an in-memory
file that holds the concatenation of the ranges. -/
theorem C01_stencil_reads_are_slices {α} (st : Store α) (fileStencils : List (Nat × Int × Int))
    (h : Inside st fileStencils) (ops : List Op)
    (hacc : (MemFile.mk (joined st fileStencils) 0).accepts ops = true) :
    ∃ r, Raw.init fileStencils = .ok r ∧
      run (st, r) ops = (MemFile.mk (joined st fileStencils) 0).run ops := by
  obtain ⟨r, hr, ho, hwf, hp⟩ := init_ok st fileStencils h
  refine ⟨r, hr, ?_⟩
  rw [← hp]
  exact run_ok ops hwf 0 (by simpa using ho) (by rw [hp]; exact hacc)

/-- Two files, three ranges (one empty), read across the boundary after a disturbance. -/
def exStore : Store Nat := fun f =>
  if f = 0 then ⟨[10, 11, 12, 13], 0, false⟩ else ⟨[20, 21, 22], 1, false⟩

example : Inside exStore [(0, 1, 2), (1, 0, 0), (1, 1, 2)] ∧
    (MemFile.mk (joined exStore [(0, 1, 2), (1, 0, 0), (1, 1, 2)]) 0).accepts
      [.seek 1 .set, .other 1 0, .read 2, .tell, .seek (-1) .end_, .read (-1)] = true ∧
    (MemFile.mk (joined exStore [(0, 1, 2), (1, 0, 0), (1, 1, 2)]) 0).run
      [.seek 1 .set, .other 1 0, .read 2, .tell, .seek (-1) .end_, .read (-1)]
      = [.num 1, .none, .bytes [12, 21], .num 3, .num 3, .bytes [22]] := by
  refine ⟨?_, by decide, by decide⟩
  intro s hs
  simp at hs
  rcases hs with rfl | rfl | rfl <;> simp [exStore]

/-- Negative offsets or sizes are refused by the constructor (the error branch of C01). -/
theorem C01_negative_ranges_rejected (fileStencils : List (Nat × Int × Int))
    (h : ∃ s ∈ fileStencils, s.2.1 < 0 ∨ s.2.2 < 0) :
    Raw.init fileStencils = .error .assertionError := by
  obtain ⟨s, hs, hneg⟩ := h
  unfold Raw.init
  split
  · rfl
  · next h1 =>
    rw [if_pos]
    simp only [List.any_eq_true, decide_eq_true_eq, not_exists, not_and] at h1 ⊢
    refine ⟨s, hs, ?_⟩
    rcases hneg with h2 | h2
    · exact absurd h2 (h1 s hs)
    · exact h2

example : ∃ s ∈ [(0, (1 : Int), (-2 : Int))], s.2.1 < 0 ∨ s.2.2 < 0 := ⟨(0, 1, -2), by simp, by decide⟩

/-! ## C02 -/

/-- The full statement of C02 for stenciled views: after a rejected seek the view goes on like
the in-memory file, which has not moved. -/
def C02_statement (α : Type) : Prop :=
  ∀ (st : Store α) (fileStencils : List (Nat × Int × Int)), Inside st fileStencils →
    ∀ (ops : List Op) (r : Raw), Raw.init fileStencils = .ok r →
      run (st, r) ops = (MemFile.mk (joined st fileStencils) 0).run ops

/-- **C02 is violated by the code**: the rejected target stays as the position, so that the
next read fails with an assertion. -/
theorem C02_violated : ¬ C02_statement Nat := by
  intro h
  have hin : Inside exStore [(0, 1, 2)] := by
    intro s hs; simp at hs; subst hs; simp [exStore]
  have := h exStore [(0, 1, 2)] hin [.seek (-1) .set, .read 1]
    { offset := 0, stencils := [(0, 1, 2)], cumsizes := [0, 2] } rfl
  exact absurd this (by decide +kernel)

/-- **C02, provable part**: whatever happened before, including rejected seeks, the first
absolute seek to a non-negative position brings the view back in step with the in-memory file.
Missing: reads, `tell` and relative seeks between the rejected seek and the absolute one. -/
theorem C02_recovery_partial {α} (st : Store α) (fileStencils : List (Nat × Int × Int))
    (h : Inside st fileStencils) (r : Raw) (hr : Raw.init fileStencils = .ok r)
    (before after : List Op) (o : Nat)
    (hacc : (MemFile.mk (joined st fileStencils) o).accepts after = true) :
    (run (st, r) (before ++ .seek o .set :: after)).drop (before.length + 1)
      = (MemFile.mk (joined st fileStencils) o).run after := by
  obtain ⟨r', hr', -, hwf, hp⟩ := init_ok st fileStencils h
  rw [hr] at hr'; cases hr'
  clear hr
  rw [← hp] at hacc ⊢
  clear hp h
  -- every step keeps the ranges, the cumulative sizes and the data
  have key : ∀ (op : Op) (st : Store α) (r : Raw), WF st r →
      ∃ st' o', (step (st, r) op).1 = (st', { r with offset := o' }) ∧ SameData st' st := by
    intro op st r hwf
    rcases Int.lt_or_le r.offset 0 with hneg | hnn
    · cases op with
      | read n =>
        simp only [step]
        have hl : ∀ n : Nat, ∃ st' o' x, r.readLoop st n ([] : List α) = (st', { r with offset := o' }, x) ∧
            SameData st' st := by
          intro n
          rcases Nat.eq_zero_or_pos n with h0 | h0
          · subst h0; unfold Raw.readLoop; exact ⟨st, r.offset, _, rfl, SameData.refl _⟩
          · exact ⟨st, r.offset, _, readLoop_neg st r n [] h0 hneg, SameData.refl _⟩
        have hr : ∃ st' o' x, r.read st n = (st', { r with offset := o' }, x) ∧ SameData st' st := by
          unfold Raw.read
          split
          · exact hl _
          · split
            · exact ⟨st, r.offset, _, rfl, SameData.refl _⟩
            · exact hl _
        obtain ⟨st', o', x, hx, hsd⟩ := hr
        rw [hx]; cases x <;> exact ⟨st', o', rfl, hsd⟩
      | seek o w =>
        obtain ⟨o', ho'⟩ := seek_step st r o w
        exact ⟨st, o', ho', SameData.refl _⟩
      | tell => exact ⟨st, r.offset, rfl, SameData.refl _⟩
      | other f q => exact ⟨st.seek f q, r.offset, rfl, sameData_seek _ _ _⟩
    · cases op with
      | seek o w =>
        obtain ⟨o', ho'⟩ := seek_step st r o w
        exact ⟨st, o', ho', SameData.refl _⟩
      | read n =>
        obtain ⟨st', hs, hsd, -⟩ := step_ok hwf r.offset.toNat (by omega) (.read n) rfl
        rw [hs]; exact ⟨st', _, rfl, hsd⟩
      | tell => exact ⟨st, r.offset, rfl, SameData.refl _⟩
      | other f q => exact ⟨st.seek f q, r.offset, rfl, sameData_seek _ _ _⟩
  induction before generalizing st r with
  | nil =>
    simp only [List.nil_append, List.length_nil, run, Nat.zero_add, List.drop_succ_cons, List.drop_zero]
    have : (step (st, r) (.seek o .set)).1 = (st, { r with offset := (o : Int) }) := by
      have hn : ¬ r.target (o : Int) .set < 0 := by simp [Raw.target]
      simp only [step, Raw.seek, if_neg hn]; rfl
    rw [this]
    exact run_ok after (r := { r with offset := (o : Int) }) (hwf.offset _) o rfl hacc
  | cons op before ih =>
    obtain ⟨st', o', hs, hsd⟩ := key op st r hwf
    simp only [List.cons_append, run, List.length_cons, List.drop_succ_cons]
    rw [hs, ih (r := { r with offset := o' }) (st := st') (by simpa [hsd.pieces] using hacc)
      ((hwf.same hsd).offset o')]
    simp [hsd.pieces]

example : (MemFile.mk (joined exStore [(0, 1, 2)]) 1).accepts [.read 5, .seek (-1) .cur] = true := by decide

end Verif.Stencil
