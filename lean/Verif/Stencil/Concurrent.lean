import Verif.Stencil.Props

/-!
# C04: several threads, one underlying file, one lock

Fine-grained model of `RawStenciledFile.read` (StenciledFile.py:142-156) running in several
threads: every underlying `seek` and every underlying `read` is a step of its own, and the
scheduler may switch threads between any two steps. Each thread owns one view; all views share
the store of file objects and, if `useLock`, one `fileObjectLock`.

Simplification: Python code between two accesses to shared objects is one step; each thread uses
its own view (two threads sharing one view would race on `self.offset`, which the code does not
protect either).
-/

namespace Verif.Stencil

open Verif.Py

/-- Where a thread is inside `read` (StenciledFile.py:142-156). -/
inductive Pc (α : Type) where
  /-- Between two calls. -/
  | idle
  /-- Line 149: at `with self.fileObjectLock`; wants to read `n` bytes. -/
  | waiting (n : Nat)
  /-- Line 150: inside the lock, at the top of the loop, `n` bytes to go. -/
  | loop (n : Nat) (result : List α)
  /-- Between lines 133 and 137: file `f` was sought, `k` bytes will be read from it. -/
  | sought (n : Nat) (result : List α) (f k : Nat)
  deriving Repr

/-- A thread: its view, its program (remaining calls), where it is, what its calls returned (StenciledFile.py:142-176). -/
structure Thread (α : Type) where
  view : Raw
  todo : List Op
  pc : Pc α
  outs : List (Out α)

/-- All threads, the files, the lock (owner), and whether a lock is used at all (StenciledFile.py:10-176). -/
structure Sys (α : Type) where
  store : Store α
  threads : Nat → Thread α
  lock : Option Nat
  useLock : Bool

/-- One thread changed (StenciledFile.py:142-156). -/
def Sys.setThread {α} (s : Sys α) (t : Nat) (th : Thread α) : Sys α :=
  { s with threads := fun u => if u = t then th else s.threads u }

/-- Leaves the `with` block (StenciledFile.py:142-156). -/
def Sys.release {α} (s : Sys α) : Sys α := if s.useLock then { s with lock := none } else s

/-- Thread `t` executes one step; a thread that waits for a held lock does not move (StenciledFile.py:118-176). -/
def Sys.step {α} (s : Sys α) (t : Nat) : Sys α :=
  let th := s.threads t
  match th.pc with
  | .idle =>
    match th.todo with
    | [] => s
    | .read n :: rest =>
      if n = -1 then                                                           -- 143-144
        let size := ((th.view.cumsizes.getLast?.getD 0) - th.view.offset).toNat
        s.setThread t { th with todo := rest, pc := .waiting size }
      else if n = 0 then                                                       -- 145-146
        s.setThread t { th with todo := rest, outs := th.outs ++ [.bytes []] }
      else s.setThread t { th with todo := rest, pc := .waiting n.toNat }
    | .seek o w :: rest =>
      match th.view.seek o w with
      | (r, .ok m) => s.setThread t { th with view := r, todo := rest, outs := th.outs ++ [.num m] }
      | (r, .error e) => s.setThread t { th with view := r, todo := rest, outs := th.outs ++ [.err e] }
    | .tell :: rest => s.setThread t { th with todo := rest, outs := th.outs ++ [.num th.view.tell] }
    | .other _ _ :: rest => s.setThread t { th with todo := rest, outs := th.outs ++ [.none] }
  | .waiting n =>                                                              -- 149
    if s.useLock then
      match s.lock with
      | some _ => s
      | none => { s.setThread t { th with pc := .loop n [] } with lock := some t }
    else s.setThread t { th with pc := .loop n [] }
  | .loop n result =>
    if n = 0 then                                                              -- 150, 156
      (s.setThread t { th with pc := .idle, outs := th.outs ++ [.bytes result] }).release
    else
      match th.view.locate s.store n with                                      -- 121-136
      | .error e => (s.setThread t { th with pc := .idle, outs := th.outs ++ [.err e] }).release
      | .ok none => (s.setThread t { th with pc := .idle, outs := th.outs ++ [.bytes result] }).release
      | .ok (some (f, q, k)) =>
        { s.setThread t { th with pc := .sought n result f k } with store := s.store.seek f q }  -- 133
  | .sought n result f k =>
    let (tmp, store) := s.store.read f k                                       -- 137
    let th : Thread α := { th with view := { th.view with offset := th.view.offset + tmp.length } }  -- 138
    match tmp with
    | [] =>                                                                    -- 152-153
      ({ s.setThread t { th with pc := .idle, outs := th.outs ++ [Out.bytes result] } with store := store }).release
    | x :: xs =>                                                               -- 154
      { s.setThread t { th with pc := .loop (n - (xs.length + 1)) (result ++ x :: xs) } with store := store }

/-- A schedule: which thread moves, step by step (StenciledFile.py:118-176). -/
def Sys.exec {α} (s : Sys α) : List Nat → Sys α
  | [] => s
  | t :: ts => (s.step t).exec ts

/-- A thread that starts with a view of the given ranges and a list of calls (StenciledFile.py:44-79). -/
def Thread.start {α} (fileStencils : List (Nat × Int × Int)) (todo : List Op) : Thread α :=
  match Raw.init fileStencils with
  | .ok r => { view := r, todo := todo, pc := .idle, outs := [] }
  | .error _ => { view := ⟨0, [], [0]⟩, todo := [], pc := .idle, outs := [] }

/-! ## invariant -/

/-- What a thread still will return, in terms of the in-memory file, given that nobody disturbs it. -/
def expected {α} (content : List α) (th : Thread α) : List (Out α) :=
  match th.pc with
  | .idle => (MemFile.mk content th.view.offset.toNat).run th.todo
  | .waiting n =>
    .bytes ((content.drop th.view.offset.toNat).take n) ::
      (MemFile.mk content (th.view.offset.toNat + ((content.drop th.view.offset.toNat).take n).length)).run th.todo
  | .loop n result =>
    .bytes (result ++ (content.drop th.view.offset.toNat).take n) ::
      (MemFile.mk content (th.view.offset.toNat + ((content.drop th.view.offset.toNat).take n).length)).run th.todo
  | .sought n result _ _ =>
    .bytes (result ++ (content.drop th.view.offset.toNat).take n) ::
      (MemFile.mk content (th.view.offset.toNat + ((content.drop th.view.offset.toNat).take n).length)).run th.todo

/-- All remaining seeks are accepted. -/
def Accepts {α} (content : List α) (th : Thread α) : Prop :=
  match th.pc with
  | .idle => (MemFile.mk content th.view.offset.toNat).accepts th.todo = true
  | .waiting n | .loop n _ | .sought n _ _ _ =>
    (MemFile.mk content (th.view.offset.toNat + ((content.drop th.view.offset.toNat).take n).length)).accepts th.todo = true

def Pc.inLock {α} : Pc α → Prop
  | .idle | .waiting _ => False
  | .loop _ _ | .sought _ _ _ _ => True

/-- Per-thread invariant relative to the data `st0` of the files and the full expected output. -/
structure TInv {α} (st0 : Store α) (s : Sys α) (t : Nat) (full : List (Out α)) : Prop where
  wf : WF st0 (s.threads t).view
  off : 0 ≤ (s.threads t).view.offset
  acc : Accepts (pieces st0 (s.threads t).view.stencils) (s.threads t)
  out : (s.threads t).outs ++ expected (pieces st0 (s.threads t).view.stencils) (s.threads t) = full
  own : (s.threads t).pc.inLock ↔ s.lock = some t
  sght : ∀ n res f k, (s.threads t).pc = .sought n res f k →
    0 < k ∧ k ≤ n ∧ k ≤ (pieces st0 (s.threads t).view.stencils).length - (s.threads t).view.offset.toNat ∧
    ((s.store f).content.drop (s.store f).pos).take k
      = ((pieces st0 (s.threads t).view.stencils).drop (s.threads t).view.offset.toNat).take k

structure SInv {α} (st0 : Store α) (full : Nat → List (Out α)) (s : Sys α) : Prop where
  lock : s.useLock = true
  data : SameData s.store st0
  thr : ∀ t, TInv st0 s t (full t)

/-- A thread that is not the one that moved keeps its invariant if the shared parts it relies on
did not change. -/
theorem TInv.frame {α} {st0 : Store α} {s s' : Sys α} {t : Nat} {full}
    (h : TInv st0 s t full) (hth : s'.threads t = s.threads t)
    (hlock : s'.lock = some t ↔ s.lock = some t)
    (hst : s.lock = some t → s'.store = s.store) : TInv st0 s' t full := by
  refine ⟨by rw [hth]; exact h.wf, by rw [hth]; exact h.off, by rw [hth]; exact h.acc,
    by rw [hth]; exact h.out, by rw [hth, hlock]; exact h.own, ?_⟩
  intro n res f k hpc
  rw [hth] at hpc
  have hown : s.lock = some t := h.own.mp (by rw [hpc]; trivial)
  rw [hth, hst hown]
  exact h.sght n res f k hpc

theorem setThread_same {α} (s : Sys α) (t : Nat) (th : Thread α) : (s.setThread t th).threads t = th := by
  simp [Sys.setThread]

theorem setThread_other {α} (s : Sys α) (t u : Nat) (th : Thread α) (h : u ≠ t) :
    (s.setThread t th).threads u = s.threads u := by
  simp [Sys.setThread, h]

/-- Builds the invariant of the whole system after thread `t` moved. -/
theorem SInv.update {α} {st0 : Store α} {full} {s s' : Sys α} {t : Nat} (h : SInv st0 full s)
    (hl : s'.useLock = true) (hd : SameData s'.store st0)
    (hother : ∀ u, u ≠ t → s'.threads u = s.threads u)
    (hlock : ∀ u, u ≠ t → (s'.lock = some u ↔ s.lock = some u))
    (hst : s'.store = s.store ∨ s.lock = some t)
    (ht : TInv st0 s' t (full t)) : SInv st0 full s' := by
  refine ⟨hl, hd, ?_⟩
  intro u
  by_cases hu : u = t
  · subst hu; exact ht
  · refine (h.thr u).frame (hother u hu) (hlock u hu) ?_
    intro hown
    rcases hst with h1 | h1
    · exact h1
    · rw [h1] at hown; cases hown; exact absurd rfl hu

theorem step_inv {α} {st0 : Store α} {full} {s : Sys α} (h : SInv st0 full s) (t : Nat) :
    SInv st0 full (s.step t) := by
  have ht := h.thr t
  obtain ⟨hwf, hoff, hacc, hout, hown, hsght⟩ := ht
  have hp : (s.threads t).view.offset = ((s.threads t).view.offset.toNat : Nat) := by omega
  have hwfs : WF s.store (s.threads t).view := hwf.same h.data
  unfold Sys.step
  generalize hth : s.threads t = th at *
  obtain ⟨view, todo, pc, outs⟩ := th
  simp only at *
  cases pc with
  | idle =>
    simp only
    have hno : ¬ s.lock = some t := fun hl => hown.mpr hl
    -- the moved thread stays outside the lock and nothing shared changes
    have fin : ∀ th' : Thread α, WF st0 th'.view → 0 ≤ th'.view.offset →
        Accepts (pieces st0 th'.view.stencils) th' →
        th'.outs ++ expected (pieces st0 th'.view.stencils) th' = full t →
        ¬ th'.pc.inLock → SInv st0 full (s.setThread t th') := by
      intro th' h1 h2 h3 h4 h5
      refine h.update (t := t) h.lock h.data (fun u hu => setThread_other s t u th' hu) (fun u hu => Iff.rfl)
        (Or.inl rfl) ?_
      have e := setThread_same s t th'
      refine ⟨by rw [e]; exact h1, by rw [e]; exact h2, by rw [e]; exact h3, by rw [e]; exact h4, ?_, ?_⟩
      · rw [e]; exact ⟨fun hx => absurd hx h5, fun hx => absurd hx hno⟩
      · intro n res f k hpc
        rw [e] at hpc; rw [hpc] at h5; exact absurd trivial h5
    cases todo with
    | nil => exact h
    | cons op rest =>
      simp only [Accepts, MemFile.accepts, Bool.and_eq_true] at hacc
      simp only [expected, MemFile.run] at hout
      cases op with
      | read n =>
        simp only
        by_cases h1 : n = -1
        · subst h1
          simp only [if_true]
          have hsz : (view.cumsizes.getLast?.getD 0 - view.offset).toNat
              = (pieces st0 view.stencils).length - view.offset.toNat := by
            rw [hwf.total]; omega
          have htk : ((pieces st0 view.stencils).drop view.offset.toNat).take
                ((pieces st0 view.stencils).length - view.offset.toNat)
              = (pieces st0 view.stencils).drop view.offset.toNat :=
            List.take_of_length_le (by simp)
          rw [hsz]
          refine fin _ hwf hoff ?_ ?_ (by simp [Pc.inLock])
          · simp only [Accepts]; rw [htk]; simpa [MemFile.step] using hacc.2
          · simp only [expected]; rw [htk]; simpa [MemFile.step] using hout
        · rw [if_neg h1]
          by_cases h0 : n = 0
          · subst h0
            simp only [if_true]
            refine fin _ hwf hoff ?_ ?_ (by simp [Pc.inLock])
            · simpa [MemFile.step, Accepts] using hacc.2
            · simpa [MemFile.step, expected] using hout
          · rw [if_neg h0]
            refine fin _ hwf hoff ?_ ?_ (by simp [Pc.inLock])
            · simpa [MemFile.step, Accepts, h1] using hacc.2
            · simpa [MemFile.step, expected, h1] using hout
      | seek o w =>
        have heq : view.target o w = (MemFile.mk (pieces st0 view.stencils) view.offset.toNat).target o w := by
          cases w
          · rfl
          · simp only [MemFile.target, Raw.target]; omega
          · simp only [MemFile.target, Raw.target, hwf.total]
        have hnn : 0 ≤ view.target o w := by simpa [heq] using hacc.1
        have hsk : view.seek o w = ({ view with offset := view.target o w }, .ok (view.target o w)) := by
          unfold Raw.seek; rw [if_neg (by omega)]
        simp only [hsk]
        refine fin _ (hwf.offset _) hnn ?_ ?_ (by simp [Pc.inLock])
        · have := hacc.2
          simp only [MemFile.step] at this
          rw [if_neg (by omega), ← heq] at this
          simpa [Accepts] using this
        · simp only [MemFile.step] at hout
          rw [if_neg (by omega), ← heq] at hout
          simpa [expected] using hout
      | tell =>
        refine fin _ hwf hoff ?_ ?_ (by simp [Pc.inLock])
        · simpa [MemFile.step, Accepts] using hacc.2
        · simp only [MemFile.step] at hout
          simp only [expected, Raw.tell]
          rw [← hp] at hout
          rw [List.append_assoc]; exact hout
      | other f q =>
        refine fin _ hwf hoff ?_ ?_ (by simp [Pc.inLock])
        · simpa [MemFile.step, Accepts] using hacc.2
        · simpa [MemFile.step, expected] using hout
  | waiting n =>
    simp only [h.lock, if_true]
    cases hl : s.lock with
    | some u => simpa [hl] using h
    | none =>
      simp only
      refine h.update (t := t) h.lock h.data (fun u hu => by simp [Sys.setThread, hu])
        (fun u hu => by simp [hl, Ne.symm hu]) (Or.inl rfl) ?_
      refine ⟨?_, ?_, ?_, ?_, ?_, ?_⟩
      all_goals simp only [Sys.setThread, if_true]
      · exact hwf
      · exact hoff
      · exact hacc
      · simpa [expected] using hout
      · simp [Pc.inLock]
      · intro n' res f k hpc; cases hpc
  | loop n result =>
    have hlk : s.lock = some t := hown.mp trivial
    simp only
    -- leaving the lock with the result `result`
    have fin : ((pieces st0 view.stencils).drop view.offset.toNat).take n = [] →
        SInv st0 full ((s.setThread t
          { view := view, todo := todo, pc := Pc.idle, outs := outs ++ [.bytes result] }).release) := by
      intro hempty
      have hrel : ((s.setThread t
          { view := view, todo := todo, pc := Pc.idle, outs := outs ++ [.bytes result] }).release)
          = { s.setThread t { view := view, todo := todo, pc := Pc.idle, outs := outs ++ [.bytes result] }
              with lock := none } := by
        unfold Sys.release; rw [if_pos (by exact h.lock)]
      rw [hrel]
      refine h.update (t := t) h.lock h.data (fun u hu => by simp [Sys.setThread, hu])
        (fun u hu => by simp [hlk, Ne.symm hu]) (Or.inl rfl) ?_
      refine ⟨?_, ?_, ?_, ?_, ?_, ?_⟩
      all_goals simp only [Sys.setThread, if_true]
      · exact hwf
      · exact hoff
      · simpa [Accepts, hempty] using hacc
      · simpa [expected, hempty] using hout
      · simp [Pc.inLock]
      · intro n' res f k hpc; cases hpc
    by_cases h0 : n = 0
    · rw [if_pos h0]; exact fin (by simp [h0])
    · rw [if_neg h0]
      rcases locate_spec hwfs view.offset.toNat n hp (by omega) with ⟨hloc, hle⟩ | ⟨f, q, k, hloc, hk, hkn, hkl, hd⟩
      · rw [hloc]
        rw [h.data.pieces] at hle
        exact fin (by rw [List.drop_of_length_le hle]; simp)
      · rw [hloc]
        rw [h.data.pieces] at hkl hd
        simp only
        refine h.update (t := t) h.lock ((sameData_seek _ _ _).trans h.data) (fun u hu => by simp [Sys.setThread, hu])
          (fun u hu => Iff.rfl) (Or.inr hlk) ?_
        refine ⟨?_, ?_, ?_, ?_, ?_, ?_⟩
        all_goals simp only [Sys.setThread, if_true]
        · exact hwf
        · exact hoff
        · simpa [Accepts] using hacc
        · simpa [expected] using hout
        · simp [Pc.inLock, hlk]
        · intro n' res f' k' hpc
          cases hpc
          refine ⟨hk, hkn, hkl, ?_⟩
          simpa [Store.seek] using hd
  | sought n result f k =>
    have hlk : s.lock = some t := hown.mp trivial
    obtain ⟨hk, hkn, hkl, hd⟩ := hsght n result f k rfl
    simp only
    have hdata : (s.store.read f k).1 = ((pieces st0 view.stencils).drop view.offset.toNat).take k := hd
    have hsd : SameData (s.store.read f k).2 s.store := sameData_seek _ _ _
    generalize hrd : s.store.read f k = rd at *
    obtain ⟨tmp, store'⟩ := rd
    simp only at hdata hsd ⊢
    have hlen : tmp.length = k := by rw [hdata]; simp; omega
    cases tmp with
    | nil => simp at hlen; omega
    | cons x xs =>
      simp only at hlen ⊢
      have hlen' : xs.length + 1 = k := by simpa using hlen
      refine h.update (t := t) h.lock (hsd.trans h.data) (fun u hu => by simp [Sys.setThread, hu])
          (fun u hu => Iff.rfl) (Or.inr hlk) ?_
      have hpos : (view.offset + ((x :: xs).length : Nat)).toNat = view.offset.toNat + k := by
        rw [hlen]; omega
      have hsplit : ((pieces st0 view.stencils).drop view.offset.toNat).take n
          = (x :: xs) ++ ((pieces st0 view.stencils).drop (view.offset.toNat + k)).take (n - k) := by
        rw [hdata, ← List.drop_drop]
        conv => lhs; rw [show n = k + (n - k) by omega]
        rw [List.take_add]
      refine ⟨?_, ?_, ?_, ?_, ?_, ?_⟩
      all_goals simp only [Sys.setThread, if_true]
      · exact hwf.offset _
      · simp only [List.length_cons]; omega
      · simp only [Accepts] at hacc ⊢
        rw [hpos, hlen']
        rw [hsplit, List.length_append, hlen] at hacc
        rw [Nat.add_assoc]; exact hacc
      · simp only [expected] at hout ⊢
        rw [hpos, hlen']
        rw [hsplit, List.length_append, hlen] at hout
        rw [List.append_assoc, Nat.add_assoc]; exact hout
      · simp [Pc.inLock, hlk]
      · intro n' res f' k' hpc; cases hpc

theorem exec_inv {α} {st0 : Store α} {full} (ts : List Nat) : ∀ {s : Sys α}, SInv st0 full s →
    SInv st0 full (s.exec ts) := by
  induction ts with
  | nil => intro s h; exact h
  | cons t ts ih => intro s h; exact ih (step_inv h t)

theorem start_inv {α} (st0 : Store α) (progs : Nat → List (Nat × Int × Int) × List Op)
    (hin : ∀ t, Inside st0 (progs t).1)
    (hacc : ∀ t, (MemFile.mk (joined st0 (progs t).1) 0).accepts (progs t).2 = true) :
    SInv st0 (fun t => (MemFile.mk (joined st0 (progs t).1) 0).run (progs t).2)
      { store := st0, threads := fun t => Thread.start (progs t).1 (progs t).2, lock := none, useLock := true } := by
  refine ⟨rfl, SameData.refl _, ?_⟩
  intro t
  obtain ⟨r, hr, ho, hwf, hp⟩ := init_ok st0 (progs t).1 (hin t)
  have hth : (Thread.start (progs t).1 (progs t).2 : Thread α)
      = { view := r, todo := (progs t).2, pc := .idle, outs := [] } := by
    unfold Thread.start; rw [hr]
  refine ⟨?_, ?_, ?_, ?_, ?_, ?_⟩
  all_goals simp only [hth]
  · exact hwf
  · omega
  · simpa [Accepts, ho, hp] using hacc t
  · simp [expected, ho, hp]
  · simp [Pc.inLock]
  · intro n res f k hpc; cases hpc

/-! ## C04 -/

/-- **C04.** Any number of threads, each with its own view of the shared files and its own list of
calls, under any schedule of their individual steps: what each thread got so far is what the
in-memory file would have returned, in order; and once the thread has no calls left it got all of it. -/
theorem C04_concurrent_reads {α} (st0 : Store α) (progs : Nat → List (Nat × Int × Int) × List Op)
    (hin : ∀ t, Inside st0 (progs t).1)
    (hacc : ∀ t, (MemFile.mk (joined st0 (progs t).1) 0).accepts (progs t).2 = true)
    (schedule : List Nat) (t : Nat) :
    let s := Sys.exec { store := st0, threads := fun t => Thread.start (progs t).1 (progs t).2,
                        lock := none, useLock := true } schedule
    (s.threads t).outs <+: (MemFile.mk (joined st0 (progs t).1) 0).run (progs t).2 ∧
    ((s.threads t).todo = [] → (s.threads t).pc matches .idle →
      (s.threads t).outs = (MemFile.mk (joined st0 (progs t).1) 0).run (progs t).2) := by
  intro s
  have h := (exec_inv schedule (start_inv st0 progs hin hacc)).thr t
  refine ⟨⟨_, h.out⟩, ?_⟩
  intro htodo hpc
  have ho := h.out
  cases hpc' : (s.threads t).pc with
  | idle =>
    change (s.threads t).outs ++ expected _ (s.threads t) = _ at ho
    simp only [expected, hpc', htodo, MemFile.run, List.append_nil] at ho
    exact ho
  | waiting _ => rw [hpc'] at hpc; cases hpc
  | loop _ _ => rw [hpc'] at hpc; cases hpc
  | sought _ _ _ _ => rw [hpc'] at hpc; cases hpc

theorem sum_update_lt (N : Nat) (f g : Nat → Nat) (u : Nat) (hu : u < N) (hlt : g u < f u)
    (hsame : ∀ v, v ≠ u → g v = f v) :
    ((List.range N).map g).sum < ((List.range N).map f).sum := by
  induction N with
  | zero => omega
  | succ N ih =>
    simp only [List.range_succ, List.map_append, List.sum_append, List.map_cons, List.map_nil,
      List.sum_cons, List.sum_nil, Nat.add_zero]
    rcases Nat.lt_or_ge u N with h | h
    · have := ih h
      rw [hsame N (by omega)]; omega
    · have hN : u = N := by omega
      subst hN
      have : (List.range u).map g = (List.range u).map f := by
        apply List.map_congr_left
        intro v hv
        exact hsame v (by simp at hv; omega)
      rw [this]; omega

theorem List.le_sum_of_mem_nat (l : List Nat) (x : Nat) (h : x ∈ l) : x ≤ l.sum := by
  induction l with
  | nil => cases h
  | cons a l ih =>
    rcases List.mem_cons.mp h with rfl | h
    · simp
    · have := ih h; simp; omega

/-- Thread `t` has nothing left to do. -/
def Sys.done {α} (s : Sys α) (t : Nat) : Prop := (s.threads t).todo = [] ∧ (s.threads t).pc matches .idle

/-- Upper bound for the steps a call takes. -/
def opWork (total : Nat) : Op → Nat
  | .read n => 2 * max n.toNat total + 3
  | _ => 1

def pcWork {α} : Pc α → Nat
  | .idle => 0
  | .waiting n => 2 * n + 2
  | .loop n _ => 2 * n + 1
  | .sought n _ _ _ => 2 * n

/-- Upper bound for the steps a thread still takes. -/
def work {α} (st0 : Store α) (th : Thread α) : Nat :=
  pcWork th.pc + (th.todo.map (opWork (pieces st0 th.view.stencils).length)).sum

theorem release_threads {α} (s : Sys α) : s.release.threads = s.threads := by
  unfold Sys.release; split <;> rfl

theorem step_other {α} (s : Sys α) (t u : Nat) (h : u ≠ t) : (s.step t).threads u = s.threads u := by
  unfold Sys.step
  dsimp only
  repeat' split
  all_goals first
    | rfl
    | simp only [release_threads, Sys.setThread, if_neg h]

/-- A step of a thread that is neither done nor waiting for a held lock brings it closer to the end. -/
theorem step_work {α} {st0 : Store α} {full} {s : Sys α} (h : SInv st0 full s) (t : Nat)
    (hb : ¬ s.done t) (hl : s.lock = none ∨ s.lock = some t) :
    work st0 ((s.step t).threads t) < work st0 (s.threads t) := by
  obtain ⟨hwf, hoff, hacc, hout, hown, hsght⟩ := h.thr t
  have hp : (s.threads t).view.offset = ((s.threads t).view.offset.toNat : Nat) := by omega
  have hwfs : WF s.store (s.threads t).view := hwf.same h.data
  unfold Sys.done at hb
  unfold Sys.step
  generalize hth : s.threads t = th at *
  obtain ⟨view, todo, pc, outs⟩ := th
  simp only at *
  cases pc with
  | idle =>
    cases todo with
    | nil => exact absurd (by simp) hb
    | cons op rest =>
      cases op with
      | read n =>
        simp only
        by_cases h1 : n = -1
        · rw [if_pos h1]
          simp only [setThread_same, work, pcWork, List.map_cons, List.sum_cons, opWork]
          have := hwf.total
          omega
        · rw [if_neg h1]
          by_cases h0 : n = 0
          · rw [if_pos h0]
            simp only [setThread_same, work, pcWork, List.map_cons, List.sum_cons, opWork]
            omega
          · rw [if_neg h0]
            simp only [setThread_same, work, pcWork, List.map_cons, List.sum_cons, opWork]
            omega
      | seek o w =>
        simp only
        split
        · next r m hs =>
          have hr : r.stencils = view.stencils := by
            have := congrArg (fun x => x.1.stencils) hs
            unfold Raw.seek at this; split at this <;> exact this.symm
          simp only [setThread_same, work, pcWork, List.map_cons, List.sum_cons, opWork, hr]
          omega
        · next r m hs =>
          have hr : r.stencils = view.stencils := by
            have := congrArg (fun x => x.1.stencils) hs
            unfold Raw.seek at this; split at this <;> exact this.symm
          simp only [setThread_same, work, pcWork, List.map_cons, List.sum_cons, opWork, hr]
          omega
      | tell =>
        simp only [setThread_same, work, pcWork, List.map_cons, List.sum_cons, opWork]
        omega
      | other f q =>
        simp only [setThread_same, work, pcWork, List.map_cons, List.sum_cons, opWork]
        omega
  | waiting n =>
    have hno : ¬ s.lock = some t := fun hx => hown.mpr hx
    have hn : s.lock = none := by rcases hl with h1 | h1; exact h1; exact absurd h1 hno
    simp only [h.lock, if_true, hn, Sys.setThread, work, pcWork]
    omega
  | loop n result =>
    simp only
    by_cases h0 : n = 0
    · rw [if_pos h0]
      simp only [release_threads, setThread_same, work, pcWork]; omega
    · rw [if_neg h0]
      split
      · simp only [release_threads, setThread_same, work, pcWork]; omega
      · simp only [release_threads, setThread_same, work, pcWork]; omega
      · simp only [Sys.setThread, if_true, work, pcWork]; omega
  | sought n result f k =>
    obtain ⟨hk, hkn, hkl, hd⟩ := hsght n result f k rfl
    simp only
    split
    · simp only [release_threads, Sys.setThread, if_true, work, pcWork]; omega
    · next x xs htmp =>
      simp only [Sys.setThread, if_true, work, pcWork]; omega

/-- **C04, no deadlock.** From every state any schedule can lead to, all calls of the first `N` threads
can be completed: no thread is ever stuck behind the lock. -/
theorem C04_no_deadlock {α} (st0 : Store α) (progs : Nat → List (Nat × Int × Int) × List Op)
    (hin : ∀ t, Inside st0 (progs t).1)
    (hacc : ∀ t, (MemFile.mk (joined st0 (progs t).1) 0).accepts (progs t).2 = true)
    (schedule : List Nat) (N : Nat) (hN : ∀ t ∈ schedule, t < N) :
    ∃ rest, ∀ t, t < N →
      (Sys.exec { store := st0, threads := fun t => Thread.start (progs t).1 (progs t).2,
                  lock := none, useLock := true } (schedule ++ rest)).done t := by
  have happ : ∀ (a b : List Nat) (s : Sys α), s.exec (a ++ b) = (s.exec a).exec b := by
    intro a; induction a with
    | nil => intros; rfl
    | cons x a ih => intro b s; exact ih b _
  -- only threads below `N` can hold the lock
  have hlockN : ∀ (ts : List Nat) (s : Sys α), (∀ t ∈ ts, t < N) → (∀ u, s.lock = some u → u < N) →
      ∀ u, (s.exec ts).lock = some u → u < N := by
    intro ts
    induction ts with
    | nil => intro s _ h; exact h
    | cons t ts ih =>
      intro s hts h
      refine ih _ (fun u hu => hts u (by simp [hu])) ?_
      intro u hu
      have : (s.step t).lock = s.lock ∨ (s.step t).lock = none ∨ (s.step t).lock = some t := by
        unfold Sys.step
        dsimp only
        repeat' split
        all_goals first
          | exact Or.inl rfl
          | (right; right; rfl)
          | (unfold Sys.release; split <;> first | (right; left; rfl) | exact Or.inl rfl)
      rcases this with h1 | h1 | h1
      · exact h u (by rw [← h1]; exact hu)
      · rw [h1] at hu; cases hu
      · rw [h1] at hu; cases hu; exact hts _ (by simp)
  have key : ∀ (w : Nat) (s : Sys α) (full), SInv st0 full s → (∀ u, s.lock = some u → u < N) →
      ((List.range N).map (fun t => work st0 (s.threads t))).sum ≤ w →
      ∃ rest, ∀ t, t < N → (s.exec rest).done t := by
    intro w
    induction w with
    | zero =>
      intro s full h hlk hw
      refine ⟨[], ?_⟩
      intro t ht
      refine Classical.byContradiction fun hnd => ?_
      rcases hl : s.lock with _ | u
      · have h1 := step_work h t hnd (Or.inl hl)
        have h2 : work st0 (s.threads t) ≤ ((List.range N).map (fun t => work st0 (s.threads t))).sum :=
          List.le_sum_of_mem_nat _ _ (by simp; exact ⟨t, ht, rfl⟩)
        omega
      · have hun : ¬ s.done u := by
          intro hd
          have := (h.thr u).own.mpr hl
          unfold Sys.done at hd
          cases hpc : (s.threads u).pc <;> simp_all [Pc.inLock]
        have h1 := step_work h u hun (Or.inr hl)
        have h2 : work st0 (s.threads u) ≤ ((List.range N).map (fun t => work st0 (s.threads t))).sum :=
          List.le_sum_of_mem_nat _ _ (by simp; exact ⟨u, hlk u hl, rfl⟩)
        omega
    | succ w ih =>
      intro s full h hlk hw
      by_cases hall : ∀ t, t < N → s.done t
      · exact ⟨[], hall⟩
      · obtain ⟨t, ht⟩ := Classical.not_forall.mp hall
        obtain ⟨htN, hnd⟩ := Classical.not_imp.mp ht
        have hmv : ∃ u, u < N ∧ ¬ s.done u ∧ (s.lock = none ∨ s.lock = some u) := by
          rcases hl : s.lock with _ | u
          · exact ⟨t, htN, hnd, Or.inl rfl⟩
          · refine ⟨u, hlk u hl, ?_, Or.inr rfl⟩
            intro hd
            have := (h.thr u).own.mpr hl
            unfold Sys.done at hd
            cases hpc : (s.threads u).pc <;> simp_all [Pc.inLock]
        obtain ⟨u, huN, hund, hul⟩ := hmv
        have hdec := step_work h u hund hul
        have hsum := sum_update_lt N (fun t => work st0 (s.threads t))
          (fun t => work st0 ((s.step u).threads t)) u huN hdec
          (fun v hv => by simp only [step_other s u v hv])
        obtain ⟨rest, hrest⟩ := ih (s.step u) full (step_inv h u)
          (hlockN [u] s (by simpa using huN) hlk) (by omega)
        exact ⟨u :: rest, hrest⟩
  obtain ⟨rest, hrest⟩ := key _ _ _ (exec_inv schedule (start_inv st0 progs hin hacc))
    (hlockN schedule _ hN (by intro u hu; cases hu)) (Nat.le_refl _)
  exact ⟨rest, fun t ht => by rw [happ]; exact hrest t ht⟩

/-! ### the hypotheses are satisfiable, and the lock is needed -/

/-- Two threads reading different ranges of one file. -/
def exProgs : Nat → List (Nat × Int × Int) × List Op
  | 0 => ([(0, 0, 2)], [.read 2])
  | 1 => ([(0, 2, 2)], [.seek 1 .set, .read (-1)])
  | _ => ([], [])

example : (∀ t, Inside exStore (exProgs t).1) ∧
    (∀ t, (MemFile.mk (joined exStore (exProgs t).1) 0).accepts (exProgs t).2 = true) := by
  constructor <;> intro t
  · match t with
    | 0 => intro s hs; simp [exProgs] at hs; subst hs; simp [exStore]
    | 1 => intro s hs; simp [exProgs] at hs; subst hs; simp [exStore]
    | (n + 2) => intro s hs; simp [exProgs] at hs
  · match t with
    | 0 => decide
    | 1 => decide
    | (n + 2) => rfl

/-- Without the lock (`fileObjectLock=None`) there is a schedule under which a thread gets the bytes of
another thread's range: the theorem above is about the lock. -/
theorem C04_lock_is_needed :
    ((Sys.exec { store := exStore, threads := fun t => Thread.start (exProgs t).1 (exProgs t).2,
                 lock := none, useLock := false } [0, 0, 0, 1, 1, 1, 1, 0, 0, 0, 0]).threads 0).outs
      = [.bytes [13, 11]] ∧
    (MemFile.mk (joined exStore (exProgs 0).1) 0).run (exProgs 0).2 = [.bytes [10, 11]] := by
  decide +kernel

end Verif.Stencil
