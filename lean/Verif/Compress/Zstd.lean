import Verif.Bytes

/-!
# C55: parallel compression (core/ratarmountcore/compressions.py:360-385, `_compress_zstd`, `compress_zstd`)

The main thread and the workers of the pool are interleaved arbitrarily. A worker finishes any task that was submitted and
not finished, which is more than a pool with a limited number of threads does. Exceptions (of the disk, of the compressor)
are not modelled, nor is the choice of the number of threads: it is any positive number, as `os.cpu_count()` is.
-/

namespace Verif.Compress

open Verif.Bin

/-- `file.read(frameSize)`: a negative size reads everything (compressions.py:375). -/
def readFrame (size : Int) (rest : Data) : Data × Data :=
  if size < 0 then (rest, []) else (rest.take size.toNat, rest.drop size.toNat)

/-- Where the main thread is: in the first loop (compressions.py:376), in the second one (compressions.py:382), or done. -/
inductive Phase where
  | reading | draining | done
  deriving DecidableEq, Repr

/-- What is left of the input, the list `results` (each with its data and whether it is finished), the output file (compressions.py:364-385). -/
structure State where
  phase : Phase
  rest : Data
  queue : List (Data × Bool)
  out : Data
  deriving DecidableEq, Repr

/-- One step of the main thread or of a worker (compressions.py:360-385). -/
inductive Step (compress : Data → Data) (size : Int) (threads : Nat) : State → State → Prop where
  /-- 376-377: read and submit. -/
  | submit (rest : Data) (q : List (Data × Bool)) (out : Data) (hq : q.length < threads)
      (h : (readFrame size rest).1 ≠ []) :
      Step compress size threads ⟨.reading, rest, q, out⟩
        ⟨.reading, (readFrame size rest).2, q ++ [((readFrame size rest).1, false)], out⟩
  /-- 376: nothing more to read. -/
  | eof (rest : Data) (q : List (Data × Bool)) (out : Data) (hq : q.length < threads)
      (h : (readFrame size rest).1 = []) :
      Step compress size threads ⟨.reading, rest, q, out⟩ ⟨.draining, (readFrame size rest).2, q, out⟩
  /-- 378-380: wait for the first result and write it. -/
  | flush (rest : Data) (c : Data) (q : List (Data × Bool)) (out : Data) (hq : threads ≤ q.length + 1) :
      Step compress size threads ⟨.reading, rest, (c, true) :: q, out⟩ ⟨.reading, rest, q, out ++ compress c⟩
  /-- 382-383. -/
  | drain (rest : Data) (c : Data) (q : List (Data × Bool)) (out : Data) :
      Step compress size threads ⟨.draining, rest, (c, true) :: q, out⟩ ⟨.draining, rest, q, out ++ compress c⟩
  | finish (rest : Data) (out : Data) : Step compress size threads ⟨.draining, rest, [], out⟩ ⟨.done, rest, [], out⟩
  /-- A worker finishes a task. -/
  | work (phase : Phase) (rest : Data) (before : List (Data × Bool)) (c : Data) (after : List (Data × Bool)) (out : Data) :
      Step compress size threads ⟨phase, rest, before ++ (c, false) :: after, out⟩
        ⟨phase, rest, before ++ (c, true) :: after, out⟩

/-- Any number of steps (compressions.py:360-385). -/
inductive Steps (compress : Data → Data) (size : Int) (threads : Nat) (s : State) : State → Prop where
  | refl : Steps compress size threads s s
  | tail {t u : State} (h : Steps compress size threads s t) (h' : Step compress size threads t u) :
      Steps compress size threads s u

/-- Before the first turn (compressions.py:364-374). -/
def start (input : Data) : State := ⟨.reading, input, [], []⟩

/-! ## specification -/

/-- The output for frames with the given contents. -/
def frames (compress : Data → Data) (contents : List Data) : Data := (contents.map compress).flatten

/-- The input is cut into pieces of the frame size; the last one may be shorter. A negative frame size means one piece. -/
def Pieces (size : Int) (input : Data) (contents : List Data) : Prop :=
  contents.flatten = input ∧ [] ∉ contents ∧
    ∀ before c after, contents = before ++ c :: after →
      (0 ≤ size → c.length ≤ size.toNat ∧ (after ≠ [] → c.length = size.toNat)) ∧ (size < 0 → after = [] ∧ before = [])

/-- A decompressor: it takes the first frame of a file. -/
def Inverts (compress : Data → Data) (first : Data → Option (Data × Data)) : Prop :=
  ∀ c rest, first (compress c ++ rest) = some (c, rest)

/-- Decompressing a number of frames, one after the other. -/
def decompress (first : Data → Option (Data × Data)) : Nat → Data → Option Data
  | 0, d => if d.isEmpty then some [] else none
  | n + 1, d => match first d with
    | none => none
    | some (c, rest) => (decompress first n rest).map (c ++ ·)

/-! ## proofs -/

theorem readFrame_append (size : Int) (rest : Data) : (readFrame size rest).1 ++ (readFrame size rest).2 = rest := by
  unfold readFrame
  split <;> simp

theorem readFrame_nil (size : Int) (hs : size ≠ 0) (rest : Data) (h : (readFrame size rest).1 = []) : rest = [] := by
  unfold readFrame at h
  split at h
  · exact h
  · rcases List.take_eq_nil_iff.mp h with h | h
    · omega
    · exact h

/-- What was written, what is in the queue, and what is not read. -/
structure Inv (compress : Data → Data) (size : Int) (threads : Nat) (input : Data) (s : State) (written : List Data) :
    Prop where
  out : s.out = frames compress written
  all : written.flatten ++ (s.queue.map (fun e : Data × Bool => e.1)).flatten ++ s.rest = input
  nonempty : [] ∉ written ++ s.queue.map (fun e : Data × Bool => e.1)
  full : 0 ≤ size → ∀ before c after, written ++ s.queue.map (fun e : Data × Bool => e.1) = before ++ c :: after →
    c.length ≤ size.toNat ∧ ((after ≠ [] ∨ s.rest ≠ []) → c.length = size.toNat)
  single : size < 0 → (written ++ s.queue.map (fun e : Data × Bool => e.1) = [] ∨
    (s.rest = [] ∧ ∃ c, written ++ s.queue.map (fun e : Data × Bool => e.1) = [c]))
  queue : s.queue.length ≤ threads
  eof : s.phase ≠ .reading → s.rest = []
  done : s.phase = .done → s.queue = []

theorem inv_start (compress : Data → Data) (size : Int) (threads : Nat) (input : Data) :
    Inv compress size threads input (start input) [] where
  out := rfl
  all := by simp [start]
  nonempty := by simp [start]
  full := by intro _ before c after h; simp [start] at h
  single := by intro _; exact .inl rfl
  queue := by simp [start]
  eof := by intro h; exact absurd rfl h
  done := by intro h; cases h

theorem split_last {α : Type} {l before after : List α} {x c : α} (h : l ++ [x] = before ++ c :: after) :
    (after = [] ∧ before = l ∧ c = x) ∨ ∃ after', after = after' ++ [x] ∧ l = before ++ c :: after' := by
  rcases List.eq_nil_or_concat after with rfl | ⟨a, y, rfl⟩
  · left
    have := List.append_inj' h rfl
    exact ⟨rfl, this.1.symm, by injection this.2 with h _; exact h.symm⟩
  · right
    rw [List.concat_eq_append] at h ⊢
    have h' : l ++ [x] = (before ++ c :: a) ++ [y] := by rw [h]; simp
    have := List.append_inj' h' rfl
    have hy : x = y := by injection this.2
    exact ⟨a, by rw [hy], this.1⟩

theorem inv_step (compress : Data → Data) (size : Int) (threads : Nat) (input : Data) (hs : size ≠ 0) {s t : State}
    {written : List Data} (hi : Inv compress size threads input s written) (h : Step compress size threads s t) :
    ∃ written', Inv compress size threads input t written' := by
  cases h with
  | submit rest q out hq hne =>
    refine ⟨written, hi.out, ?_, ?_, ?_, ?_, ?_, ?_, ?_⟩
    · have := hi.all
      simp only [List.map_append, List.flatten_append, List.map_cons, List.map_nil, List.flatten_cons, List.flatten_nil,
        List.append_nil, List.append_assoc] at this ⊢
      rw [readFrame_append]
      exact this
    · have := hi.nonempty
      simp only [List.map_append, List.map_cons, List.map_nil, List.mem_append, List.mem_cons, List.not_mem_nil,
        or_false, not_or] at this ⊢
      exact ⟨this.1, this.2, fun h => hne h.symm⟩
    · intro h0 before c after h
      simp only [List.map_append, List.map_cons, List.map_nil, ← List.append_assoc] at h
      have hr : readFrame size rest = (rest.take size.toNat, rest.drop size.toNat) := by
        unfold readFrame; rw [if_neg (by omega)]
      rcases split_last h with ⟨rfl, rfl, rfl⟩ | ⟨after', rfl, h'⟩
      · rw [hr]
        simp only [List.length_take]
        refine ⟨by omega, ?_⟩
        rintro (h | h)
        · exact absurd rfl h
        · have : ¬ rest.length ≤ size.toNat := fun hle => h (List.drop_eq_nil_of_le hle)
          omega
      · have := hi.full h0 before c after' h'
        refine ⟨this.1, fun _ => this.2 (.inr ?_)⟩
        intro hx
        simp only at hx
        apply hne
        rw [hr]
        show rest.take size.toNat = []
        rw [hx]
        simp
    · intro h0
      have hr : readFrame size rest = (rest, []) := by unfold readFrame; rw [if_pos h0]
      rcases hi.single h0 with h | ⟨h, -⟩
      · right
        refine ⟨by simp only [hr], rest, ?_⟩
        simp only [List.map_append, ← List.append_assoc] at h ⊢
        rw [h, hr]
        rfl
      · simp only at h
        rw [hr] at hne
        exact absurd h hne
    · simp only [List.length_append, List.length_cons, List.length_nil]; omega
    · intro h; exact absurd rfl h
    · intro h; cases h
  | eof rest q out hq hnil =>
    have hrest := readFrame_nil size hs rest hnil
    have hr2 : (readFrame size rest).2 = [] := by
      have := readFrame_append size rest
      rw [hnil, hrest] at this
      rw [hrest]
      simpa using this
    refine ⟨written, hi.out, ?_, hi.nonempty, ?_, ?_, hi.queue, fun _ => hr2, ?_⟩
    · have := hi.all
      simp only at this ⊢
      rw [hr2, ← this, hrest]
    · intro h0 before c after h
      have := hi.full h0 before c after h
      refine ⟨this.1, ?_⟩
      rintro (h | h)
      · exact this.2 (.inl h)
      · exact absurd hr2 h
    · intro h0
      rcases hi.single h0 with h | ⟨-, h⟩
      · exact .inl h
      · exact .inr ⟨hr2, h⟩
    · intro h; cases h
  | flush rest c q out hq =>
    have e : (written ++ [c]) ++ q.map (fun e : Data × Bool => e.1) =
        written ++ ((c, true) :: q).map (fun e : Data × Bool => e.1) := by simp
    refine ⟨written ++ [c], ?_, ?_, ?_, ?_, ?_, ?_, hi.eof, ?_⟩
    · have := hi.out
      simp only at this ⊢
      rw [this]
      simp [frames]
    · have := hi.all
      simp only [List.map_cons, List.flatten_cons] at this ⊢
      rw [← this]
      simp
    · show [] ∉ (written ++ [c]) ++ q.map (fun e : Data × Bool => e.1)
      rw [e]; exact hi.nonempty
    · intro h0 before c' after h
      refine hi.full h0 before c' after ?_
      rw [← h]; exact e.symm
    · intro h0
      show (written ++ [c]) ++ q.map (fun e : Data × Bool => e.1) = [] ∨ (_ ∧ ∃ c', (written ++ [c]) ++ q.map _ = [c'])
      rw [e]
      exact hi.single h0
    · have := hi.queue
      simp only [List.length_cons] at this
      show q.length ≤ threads
      omega
    · intro h; cases h
  | drain rest c q out =>
    have e : (written ++ [c]) ++ q.map (fun e : Data × Bool => e.1) =
        written ++ ((c, true) :: q).map (fun e : Data × Bool => e.1) := by simp
    refine ⟨written ++ [c], ?_, ?_, ?_, ?_, ?_, ?_, ?_, ?_⟩
    · have := hi.out
      simp only at this ⊢
      rw [this]
      simp [frames]
    · have := hi.all
      simp only [List.map_cons, List.flatten_cons] at this ⊢
      rw [← this]
      simp
    · show [] ∉ (written ++ [c]) ++ q.map (fun e : Data × Bool => e.1)
      rw [e]; exact hi.nonempty
    · intro h0 before c' after h
      refine hi.full h0 before c' after ?_
      rw [← h]; exact e.symm
    · intro h0
      show (written ++ [c]) ++ q.map (fun e : Data × Bool => e.1) = [] ∨ (_ ∧ ∃ c', (written ++ [c]) ++ q.map _ = [c'])
      rw [e]
      exact hi.single h0
    · have := hi.queue
      simp only [List.length_cons] at this
      show q.length ≤ threads
      omega
    · intro _; exact hi.eof (by intro h; cases h)
    · intro h; cases h
  | finish rest out =>
    exact ⟨written, hi.out, hi.all, hi.nonempty, hi.full, hi.single, hi.queue, fun _ => hi.eof (by intro h; cases h),
      fun _ => rfl⟩
  | work phase rest before c after out =>
    have e : (before ++ (c, true) :: after).map (fun e : Data × Bool => e.1) =
        (before ++ (c, false) :: after).map (fun e : Data × Bool => e.1) := by simp
    refine ⟨written, hi.out, ?_, ?_, ?_, ?_, ?_, hi.eof, ?_⟩
    · have := hi.all
      simp only at this ⊢
      rw [e]; exact this
    · simp only; rw [e]; exact hi.nonempty
    · intro h0 b c' a h
      simp only at h
      rw [e] at h
      exact hi.full h0 b c' a h
    · intro h0
      simp only
      rw [e]
      exact hi.single h0
    · have := hi.queue
      simp only [List.length_append, List.length_cons] at this ⊢
      exact this
    · intro h
      have := hi.done h
      simp at this

theorem inv_steps (compress : Data → Data) (size : Int) (threads : Nat) (input : Data) (hs : size ≠ 0) {s : State}
    (h : Steps compress size threads (start input) s) : ∃ written, Inv compress size threads input s written := by
  induction h with
  | refl => exact ⟨[], inv_start compress size threads input⟩
  | tail _ h' ih => obtain ⟨w, hi⟩ := ih; exact inv_step compress size threads input hs hi h'

/-- **C55**: whatever the order in which the tasks finish, the output consists of the frames for the pieces of the input, in
order. -/
theorem C55_order (compress : Data → Data) (size : Int) (hs : size ≠ 0) (threads : Nat) (input : Data) (s : State)
    (h : Steps compress size threads (start input) s) (hd : s.phase = .done) :
    ∃ contents, Pieces size input contents ∧ s.out = frames compress contents := by
  obtain ⟨w, hi⟩ := inv_steps compress size threads input hs h
  have hq := hi.done hd
  have hr := hi.eof (by rw [hd]; intro h; cases h)
  have hall := hi.all
  have hne := hi.nonempty
  have hfull := hi.full
  have hsing := hi.single
  simp only [hq, hr, List.map_nil, List.append_nil, List.flatten_nil] at hall hne hfull hsing
  refine ⟨w, ⟨hall, hne, ?_⟩, hi.out⟩
  intro before c after hw
  refine ⟨fun h0 => ⟨(hfull h0 before c after hw).1, fun ha => (hfull h0 before c after hw).2 (.inl ha)⟩, ?_⟩
  intro h0
  rcases hsing h0 with h | ⟨-, c', h⟩
  · rw [h] at hw; simp at hw
  · rw [h] at hw
    cases before with
    | nil => injection hw with _ h2; exact ⟨h2.symm, rfl⟩
    | cons b bs => injection hw with _ h2; simp at h2

/-- **C55**: decompressing the frames one after the other gives the input. -/
theorem C55_roundtrip (compress : Data → Data) (first : Data → Option (Data × Data)) (hf : Inverts compress first)
    (size : Int) (hs : size ≠ 0) (threads : Nat) (input : Data) (s : State)
    (h : Steps compress size threads (start input) s) (hd : s.phase = .done) :
    ∃ n, decompress first n s.out = some input := by
  obtain ⟨contents, ⟨hp, -⟩, ho⟩ := C55_order compress size hs threads input s h hd
  refine ⟨contents.length, ?_⟩
  rw [ho, ← hp]
  clear ho hp h hd
  induction contents with
  | nil => rfl
  | cons c cs ih =>
    simp only [List.length_cons, decompress, frames, List.map_cons, List.flatten_cons]
    rw [hf]
    simp only
    have : decompress first cs.length (List.map compress cs).flatten = some cs.flatten := ih
    rw [this]
    rfl

/-- **C55**, nothing blocks: as long as the output is not finished, the main thread or a worker can go on. -/
theorem C55_progress (compress : Data → Data) (size : Int) (threads : Nat) (ht : 0 < threads) (s : State)
    (hd : s.phase ≠ .done) : ∃ t, Step compress size threads s t := by
  obtain ⟨phase, rest, q, out⟩ := s
  cases q with
  | nil =>
    cases phase with
    | reading =>
      by_cases h : (readFrame size rest).1 = []
      · exact ⟨_, .eof rest [] out (by simpa using ht) h⟩
      · exact ⟨_, .submit rest [] out (by simpa using ht) h⟩
    | draining => exact ⟨_, .finish rest out⟩
    | done => exact absurd rfl hd
  | cons e q =>
    obtain ⟨c, b⟩ := e
    cases b with
    | false => exact ⟨_, .work phase rest [] c q out⟩
    | true =>
      cases phase with
      | reading =>
        by_cases hl : threads ≤ q.length + 1
        · exact ⟨_, .flush rest c q out hl⟩
        · by_cases h : (readFrame size rest).1 = []
          · exact ⟨_, .eof rest ((c, true) :: q) out (by simp; omega) h⟩
          · exact ⟨_, .submit rest ((c, true) :: q) out (by simp; omega) h⟩
      | draining => exact ⟨_, .drain rest c q out⟩
      | done => exact absurd rfl hd

/-- What is left to be done. -/
def work (s : State) : Nat :=
  4 * s.rest.length + 2 * s.queue.length + (s.queue.filter (fun e : Data × Bool => !e.2)).length +
    (match s.phase with | .reading => 2 | .draining => 1 | .done => 0)

/-- **C55**, it ends: every execution has at most four steps per byte and two more. -/
theorem C55_terminates (compress : Data → Data) (size : Int) (threads : Nat) (s t : State)
    (h : Step compress size threads s t) : work t < work s := by
  cases h with
  | submit rest q out hq hne =>
    have h1 := congrArg List.length (readFrame_append size rest)
    have h2 := List.length_pos_iff.mpr hne
    simp only [List.length_append] at h1
    simp only [work, List.length_append, List.filter_append, List.length_cons, List.length_nil, List.filter_cons,
      List.filter_nil, Bool.not_false, if_true]
    omega
  | eof rest q out hq hnil =>
    have h1 := congrArg List.length (readFrame_append size rest)
    rw [hnil] at h1
    simp only [List.nil_append] at h1
    simp only [work, h1]
    omega
  | flush rest c q out hq => simp [work]
  | drain rest c q out => simp [work]
  | finish rest out => simp [work]
  | work phase rest before c after out => simp [work]

/-- With the frame size 0 nothing is ever read: the output is empty for every input. -/
theorem C55_zero (compress : Data → Data) (threads : Nat) (input : Data) (s : State)
    (h : Steps compress 0 threads (start input) s) : s.out = [] ∧ s.queue = [] := by
  induction h with
  | refl => exact ⟨rfl, rfl⟩
  | tail _ h' ih =>
    cases h' with
    | submit rest q out hq hne => exact absurd (by simp [readFrame]) hne
    | eof rest q out hq hnil => exact ih
    | flush rest c q out hq => exact absurd ih.2 (by simp)
    | drain rest c q out => exact absurd ih.2 (by simp)
    | finish rest out => exact ih
    | work phase rest before c after out => exact absurd ih.2 (by simp)

/-- Two threads, three frames of two bytes, the second task finishes first. -/
example : ∃ s, Steps (fun c => (c.length.toUInt8) :: c) 2 2 (start [1, 2, 3, 4, 5]) s ∧ s.phase = .done ∧
    s.out = [2, 1, 2, 2, 3, 4, 1, 5] := by
  refine ⟨⟨.done, [], [], [2, 1, 2, 2, 3, 4, 1, 5]⟩, ?_, rfl, rfl⟩
  refine .tail (.tail (.tail (.tail (.tail (.tail (.tail (.tail (.tail (.tail (.tail .refl
    (.submit [1, 2, 3, 4, 5] [] [] (by decide) (by decide)))
    (.submit [3, 4, 5] [([1, 2], false)] [] (by decide) (by decide)))
    (.work .reading [5] [([1, 2], false)] [3, 4] [] []))
    (.work .reading [5] [] [1, 2] [([3, 4], true)] []))
    (.flush [5] [1, 2] [([3, 4], true)] [] (by decide)))
    (.submit [5] [([3, 4], true)] [2, 1, 2] (by decide) (by decide)))
    (.flush [] [3, 4] [([5], false)] [2, 1, 2] (by decide)))
    (.eof [] [([5], false)] [2, 1, 2, 2, 3, 4] (by decide) (by decide)))
    (.work .draining [] [] [5] [] [2, 1, 2, 2, 3, 4]))
    (.drain [] [5] [] [2, 1, 2, 2, 3, 4]))
    (.finish [] [2, 1, 2, 2, 3, 4, 1, 5])

/-- A code that can be inverted: the length in front (here for pieces shorter than 256 bytes, longer ones get 0, which makes
it no inverse for them; so the hypothesis is shown for a unary code). -/
example : Inverts (fun c => List.replicate c.length 1 ++ 0 :: c) (fun d =>
    let n := (d.takeWhile (· == 1)).length
    some ((d.drop (n + 1)).take n, (d.drop (n + 1)).drop n)) := by
  intro c rest
  have h1 : ((List.replicate c.length (1 : UInt8) ++ 0 :: c) ++ rest).takeWhile (· == 1) = List.replicate c.length 1 := by
    rw [List.append_assoc, List.takeWhile_append]
    have : (List.replicate c.length (1 : UInt8)).takeWhile (· == 1) = List.replicate c.length 1 := by
      rw [List.takeWhile_replicate]; simp
    rw [this]
    simp
  simp only [h1, List.length_replicate]
  have h2 : ((List.replicate c.length (1 : UInt8) ++ 0 :: c) ++ rest).drop (c.length + 1) = c ++ rest := by
    rw [show (List.replicate c.length (1 : UInt8) ++ 0 :: c) ++ rest =
      (List.replicate c.length 1 ++ [0]) ++ (c ++ rest) by simp]
    rw [List.drop_append_of_le_length (by simp)]
    simp
  rw [h2]
  simp

end Verif.Compress
