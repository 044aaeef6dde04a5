import Verif.PyStr
import Verif.Py
import Verif.Bytes

/-!
# The command file (C83)

`split_command_line` and `CommandFile` of ratarmount/FuseMount.py:36-88. `bytes.decode` is a parameter: `none` is `UnicodeDecodeError`,
a `ValueError`. The callback is any function that may fail.
-/

namespace Verif.Command

open Verif.Py (Str split join startsWith)
open Verif.Bin (Data)

/-- `[part.decode() for part in parts]` (FuseMount.py:54) -/
def decodeAll (decode : Data → Option Str) : List Data → Option (List Str)
  | [] => some []
  | p :: ps =>
    match decode p with
    | none => none
    | some s => match decodeAll decode ps with
      | none => none
      | some ss => some (s :: ss)

/-- `split_command_line` (FuseMount.py:36-54); `none` is `ValueError`. -/
def splitCommandLine (decode : Data → Option Str) (name command : Data) : Option (List Str) :=
  if startsWith name command then
    if command = name then (decode name).map (fun n => [n])
    else
      match command.drop name.length with
      | [] => none
      | delimiter :: rest =>
        if delimiter = 0 ∨ delimiter = 10 ∨ delimiter = 32 then
          let rest := if delimiter = 32 ∧ rest.getLast? = some 10 then rest.dropLast else rest
          decodeAll decode (split delimiter rest)
        else none
  else none

/-! ## `CommandFile` (FuseMount.py:57-88) -/

/-- `CommandFile`: what was written, and whether it is closed (FuseMount.py:57-60). -/
structure File where
  buffer : Data
  closed : Bool

/-- An opened file (FuseMount.py:58-60). -/
def File.new : File := ⟨[], false⟩

/-- Calls of the file (FuseMount.py:65-88). -/
inductive Op where
  | write (d : Data)
  | close
  | tell

/-- Results of calls; `called` holds the arguments of the callback if it was called (FuseMount.py:65-88). -/
structure Out where
  value : Option Nat
  called : Option (List Str)
  failed : Bool
  deriving DecidableEq

/-- A call (FuseMount.py:65-88). `works` tells whether the callback returns for these arguments. -/
def File.call (decode : Data → Option Str) (name : Data) (works : List Str → Bool) (f : File) : Op → File × Out
  | .write d => if f.closed then (f, ⟨none, none, true⟩) else (⟨f.buffer ++ d, false⟩, ⟨some d.length, none, false⟩)
  | .tell => (f, ⟨some f.buffer.length, none, false⟩)
  | .close =>
    if f.closed then (f, ⟨none, none, false⟩)
    else if f.buffer = [] then (⟨[], true⟩, ⟨none, none, false⟩)
    else match splitCommandLine decode name f.buffer with
      | none => (⟨f.buffer, true⟩, ⟨none, none, true⟩)
      | some args => (⟨f.buffer, true⟩, ⟨none, some args, !works args⟩)

/-- A sequence of calls (FuseMount.py:65-88). -/
def File.run (decode : Data → Option Str) (name : Data) (works : List Str → Bool) : File → List Op → File × List Out
  | f, [] => (f, [])
  | f, op :: ops =>
    let r := f.call decode name works op
    let s := r.1.run decode name works ops
    (s.1, r.2 :: s.2)

/-! ## specification -/

/-- The arguments can be encoded and decoded. -/
def Codec (decode : Data → Option Str) (encode : Str → Data) (args : List Str) : Prop := ∀ a ∈ args, decode (encode a) = some a

/-- A command line: the name, and each argument after a delimiter. -/
def line (encode : Str → Data) (name : Data) (d : UInt8) : List Str → Data
  | [] => name
  | a :: as => name ++ d :: join d ((a :: as).map encode)

/-- The whole of C83: there is a way to write each list of arguments whose encodings do not contain the byte zero. -/
def C83_statement : Prop :=
  ∀ (decode : Data → Option Str) (encode : Str → Data) (name : Data) (args : List Str), Codec decode encode args →
    (∀ a ∈ args, 0 ∉ encode a) → splitCommandLine decode name (line encode name 0 args) = some args

/-- The data written by a list of calls. -/
def written : List Op → Data
  | [] => []
  | .write d :: ops => d ++ written ops
  | .close :: ops => written ops
  | .tell :: ops => written ops

/-- The calls of the callback. -/
def calls (outs : List Out) : List (List Str) := outs.filterMap (·.called)

/-! ## proofs: the command line -/

theorem decodeAll_encode {decode : Data → Option Str} {encode : Str → Data} :
    ∀ args : List Str, Codec decode encode args → decodeAll decode (args.map encode) = some args := by
  intro args
  induction args with
  | nil => intro _; rfl
  | cons a as ih =>
    intro h
    rw [List.map_cons, decodeAll, h a List.mem_cons_self, ih (fun b hb => h b (List.mem_cons_of_mem _ hb))]

theorem split_line {decode : Data → Option Str} {encode : Str → Data} (name : Data) (d : UInt8)
    (hd : d = 0 ∨ d = 10 ∨ d = 32) (args : List Str) (hc : Codec decode encode args) (hne : args ≠ []) (h : ∀ a ∈ args, d ∉ encode a) (rest : Data)
    (hr : (if d = 32 ∧ rest.getLast? = some 10 then rest.dropLast else rest) = join d (args.map encode)) :
    splitCommandLine decode name (name ++ d :: rest) = some args := by
  unfold splitCommandLine
  rw [if_pos (show startsWith name (name ++ d :: rest) = true from List.isPrefixOf_iff_prefix.mpr ⟨d :: rest, rfl⟩), if_neg, List.drop_left' rfl]
  · simp only
    rw [if_pos hd, hr, Verif.Py.split_join _ _ (by simpa using hne), decodeAll_encode _ hc]
    intro p hp
    obtain ⟨a, ha, rfl⟩ := List.mem_map.mp hp
    exact h a ha
  · intro he
    have := congrArg List.length he
    rw [List.length_append, List.length_cons] at this
    omega

/-- **C83**: with the byte zero or a newline as delimiter, a list of at least one argument is given back if no argument contains the
delimiter. Missing: the empty list. -/
theorem C83_partial (decode : Data → Option Str) (encode : Str → Data) (name : Data) (d : UInt8)
    (hd : d = 0 ∨ d = 10) (args : List Str) (hc : Codec decode encode args) (hne : args ≠ []) (h : ∀ a ∈ args, d ∉ encode a) :
    splitCommandLine decode name (line encode name d args) = some args := by
  cases args with
  | nil => exact absurd rfl hne
  | cons a as =>
    refine split_line name d (by rcases hd with h | h; exact Or.inl h; exact Or.inr (Or.inl h)) _ hc hne h _ ?_
    rw [if_neg]
    rintro ⟨h32, _⟩
    rw [h32] at hd
    revert hd; decide

/-- **C83**: with blanks, the list is given back with one newline after the command, as `echo` writes it. -/
theorem C83_echo (decode : Data → Option Str) (encode : Str → Data) (name : Data) (args : List Str) (hc : Codec decode encode args)
    (hne : args ≠ []) (h : ∀ a ∈ args, 32 ∉ encode a) :
    splitCommandLine decode name (line encode name 32 args ++ [10]) = some args := by
  cases args with
  | nil => exact absurd rfl hne
  | cons a as =>
    unfold line
    rw [List.append_assoc, List.cons_append]
    refine split_line name 32 (by decide) _ hc hne h _ ?_
    rw [if_pos ⟨rfl, by rw [List.getLast?_append]; rfl⟩, List.dropLast_concat]

/-- **C83**: with blanks and without such a newline, too. -/
theorem C83_blank (decode : Data → Option Str) (encode : Str → Data) (name : Data) (args : List Str) (hc : Codec decode encode args)
    (hne : args ≠ []) (h : ∀ a ∈ args, 32 ∉ encode a) (hl : (line encode name 32 args).getLast? ≠ some 10) :
    splitCommandLine decode name (line encode name 32 args) = some args := by
  cases args with
  | nil => exact absurd rfl hne
  | cons a as =>
    refine split_line name 32 (by decide) _ hc hne h _ ?_
    rw [if_neg]
    rintro ⟨_, h2⟩
    apply hl
    unfold line
    rw [List.getLast?_append, List.getLast?_cons, h2]
    rfl

/-- **C83**: what is accepted begins with the name, followed by nothing or by one of the delimiters. -/
theorem C83_errors (decode : Data → Option Str) (name command : Data) (args : List Str)
    (h : splitCommandLine decode name command = some args) :
    command = name ∨ ∃ d rest, command = name ++ d :: rest ∧ (d = 0 ∨ d = 10 ∨ d = 32) := by
  unfold splitCommandLine at h
  split at h
  · next hp =>
    obtain ⟨t, rfl⟩ := List.isPrefixOf_iff_prefix.mp hp
    split at h
    · next he => exact Or.inl he
    · rw [List.drop_left' rfl] at h
      cases t with
      | nil => cases h
      | cons d rest =>
        simp only at h
        split at h
        · next hd => exact Or.inr ⟨d, rest, rfl, hd⟩
        · cases h
  · cases h

/-- ASCII -/
def ascii : Data → Option Str := fun d => if d.all (fun b => b.toNat < 128) then some (d.map (fun b => Char.ofNat b.toNat)) else none

/-- C83 is violated: without arguments, the name itself becomes an argument. -/
theorem C83_violated : ¬ C83_statement := by
  intro h
  have h1 := h ascii (fun s => s.map (fun c => UInt8.ofNat c.toNat)) [114] [] (fun a ha => by cases ha) (fun a ha => by cases ha)
  have h2 : splitCommandLine ascii [114] [114] = some ["r".toList] := by decide +kernel
  have h3 := h2.symm.trans h1
  cases h3

/-! ## proofs: the file -/

theorem run_closed (decode : Data → Option Str) (name : Data) (works : List Str → Bool) : ∀ (ops : List Op) (b : Data),
    calls ((⟨b, true⟩ : File).run decode name works ops).2 = [] := by
  intro ops
  induction ops with
  | nil => intro b; rfl
  | cons op ops ih =>
    intro b
    cases op with
    | write d => exact ih b
    | close => exact ih b
    | tell => exact ih b

theorem run_open (decode : Data → Option Str) (name : Data) (works : List Str → Bool) (after : List Op) : ∀ (ops : List Op) (b : Data),
    (∀ op ∈ ops, op ≠ .close) →
    calls ((⟨b, false⟩ : File).run decode name works (ops ++ .close :: after)).2 =
      (if b ++ written ops = [] then [] else (splitCommandLine decode name (b ++ written ops)).toList) := by
  intro ops
  induction ops with
  | nil =>
    intro b _
    show calls (((⟨b, false⟩ : File).call decode name works .close).2 ::
      (((⟨b, false⟩ : File).call decode name works .close).1.run decode name works after).2) = _
    rw [written, List.append_nil]
    unfold File.call
    simp only [Bool.false_eq_true, if_false]
    by_cases hb : b = []
    · rw [if_pos hb, if_pos hb]
      exact run_closed decode name works after []
    · rw [if_neg hb, if_neg hb]
      cases hs : splitCommandLine decode name b with
      | none => exact run_closed decode name works after b
      | some args =>
        show args :: calls ((⟨b, true⟩ : File).run decode name works after).2 = [args]
        rw [run_closed]
  | cons op ops ih =>
    intro b h
    have ih := fun b => ih b (fun o ho => h o (List.mem_cons_of_mem _ ho))
    cases op with
    | close => exact absurd rfl (h .close List.mem_cons_self)
    | tell => exact ih b
    | write d =>
      have := ih (b ++ d)
      rw [List.append_assoc] at this
      exact this

/-- **C83**: however the command is cut into writes, the callback gets the arguments of all written data, once, at the first close. -/
theorem C83_file (decode : Data → Option Str) (name : Data) (works : List Str → Bool) (ops after : List Op) (h : ∀ op ∈ ops, op ≠ .close)
    (hw : written ops ≠ []) :
    calls (File.new.run decode name works (ops ++ .close :: after)).2 = (splitCommandLine decode name (written ops)).toList := by
  have := run_open decode name works after ops [] h
  rw [List.nil_append, if_neg hw] at this
  exact this

/-- **C83**: nothing is called for a file into which nothing was written. -/
theorem C83_untouched (decode : Data → Option Str) (name : Data) (works : List Str → Bool) (ops after : List Op)
    (h : ∀ op ∈ ops, op ≠ .close) (hw : written ops = []) :
    calls (File.new.run decode name works (ops ++ .close :: after)).2 = [] := by
  have := run_open decode name works after ops [] h
  rw [List.nil_append, if_pos hw] at this
  exact this

theorem run_result (decode : Data → Option Str) (name : Data) (works : List Str → Bool) (after : List Op) : ∀ (ops : List Op) (b : Data),
    (∀ op ∈ ops, op ≠ .close) →
    ((⟨b, false⟩ : File).run decode name works (ops ++ .close :: after)).2[ops.length]? =
      some ((⟨b ++ written ops, false⟩ : File).call decode name works .close).2 := by
  intro ops
  induction ops with
  | nil => intro b _; rw [written, List.append_nil]; rfl
  | cons op ops ih =>
    intro b h
    have h' := fun o ho => h o (List.mem_cons_of_mem _ ho)
    cases op with
    | close => exact absurd rfl (h .close List.mem_cons_self)
    | tell => exact ih b h'
    | write d =>
      have := ih (b ++ d) h'
      rw [List.append_assoc] at this
      exact this

/-- **C83**: closing fails exactly if the written data is no command line or the command fails. -/
theorem C83_reported (decode : Data → Option Str) (name : Data) (works : List Str → Bool) (ops after : List Op)
    (h : ∀ op ∈ ops, op ≠ .close) (hw : written ops ≠ []) :
    ∃ out, (File.new.run decode name works (ops ++ .close :: after)).2[ops.length]? = some out ∧
      (out.failed = false ↔ ∃ args, splitCommandLine decode name (written ops) = some args ∧ works args = true) := by
  refine ⟨_, run_result decode name works after ops [] h, ?_⟩
  rw [List.nil_append]
  unfold File.call
  simp only [Bool.false_eq_true, if_false]
  rw [if_neg hw]
  cases hs : splitCommandLine decode name (written ops) with
  | none => simp
  | some args => simp

/-- "r -f a\n" -/
example : splitCommandLine ascii [114] [114, 32, 45, 102, 32, 97, 10] = some ["-f".toList, "a".toList] := by decide +kernel

/-- Two writes. -/
example : (File.new.run ascii [114] (fun _ => true) [.write [114, 0, 97], .tell, .write [98, 0], .close, .close]).2 =
    [⟨some 3, none, false⟩, ⟨some 3, none, false⟩, ⟨some 2, none, false⟩, ⟨none, some ["ab".toList, []], false⟩, ⟨none, none, false⟩] := by
  decide +kernel

end Verif.Command
