import Verif.Py
import Verif.PyStr

/-!
# C163: `ratarmount --unmount` (ratarmount/actions.py:71-143)

The mounts of the host and the programs that unmount them are given by functions on worlds. A mount whose process was killed is still
mounted, but every query on its path fails, so that `os.path.ismount` returns False for it (posixpath.py: `except (OSError, ValueError):
return False`).
-/

namespace Verif.Unmount

open Verif.Py

/-- The mounts of the host. -/
structure World where
  mounted : Str → Bool
  dead : Str → Bool

/-- `os.path.ismount`, as it is used in actions.py:88, 106, 130 and 133. -/
def World.ismount (w : World) (p : Str) : Bool := w.mounted p && !w.dead p

/-- A program with a path as argument: whether `subprocess.run(..., check=True)` returns (actions.py:77, 98, 108), and what is mounted then. -/
abbrev Tool := Str → World → Bool × World

/-- The programs of the host. `others` are the executables with the name `fusermount` in the folders of `PATH` except for the first
(actions.py:92-96). -/
structure Host where
  installed : Bool
  fusermount : Tool
  others : List Tool
  umount : Tool
  /-- What happens in one second (actions.py:131). -/
  later : World → World

/-- How `unmount` goes on after a program. -/
inductive Step where
  | done (w : World)
  | next (w : World)
  | raised

/-- The handler of a failed program (actions.py:80-83, 101-104): with debug messages the version is asked for, outside of any `try`, which
raises if there is no `fusermount`. -/
def failed (h : Host) (debug : Bool) (w : World) : Step := if debug && !h.installed then .raised else .next w

/-- One attempt (actions.py:76-83, 97-104). -/
def attempt (h : Host) (debug : Bool) (t : Tool) (p : Str) (w : World) : Step :=
  if (t p w).1 then .done (t p w).2 else failed h debug (t p w).2

/-- The loop over the other programs (actions.py:92-104). -/
def tryOthers (h : Host) (debug : Bool) (p : Str) : List Tool → World → Step
  | [], w => .next w
  | t :: ts, w =>
    match attempt h debug t p w with
    | .next w' => tryOthers h debug p ts w'
    | .done w' => .done w'
    | .raised => .raised

/-- The last attempt (actions.py:106-112). -/
def finally_ (h : Host) (p : Str) (w : World) : World := if w.ismount p then (h.umount p w).2 else w

/-- The attempts after the first one (actions.py:88-112). -/
def fallback (h : Host) (debug : Bool) (p : Str) (w : World) : Except PyErr World :=
  match (if w.ismount p then tryOthers h debug p h.others w else .next w) with
  | .done w' => .ok w'
  | .next w' => .ok (finally_ h p w')
  | .raised => .error .fileNotFound

/-- `unmount` (actions.py:71-112). -/
def unmount (h : Host) (debug : Bool) (p : Str) (w : World) : Except PyErr World :=
  match attempt h debug h.fusermount p w with
  | .done w' => .ok w'
  | .next w' => fallback h debug p w'
  | .raised => .error .fileNotFound

/-- The loop of `unmount_list_checked` (actions.py:120-121). -/
def unmountEach (h : Host) (debug : Bool) : List Str → World → Except PyErr World
  | [], w => .ok w
  | p :: ps, w =>
    match unmount h debug p w with
    | .ok w' => unmountEach h debug ps w'
    | .error e => .error e

/-- The exit status and the world in which it was determined (actions.py:129-143). -/
def status (h : Host) (points : List Str) (w : World) : Nat × World :=
  if points.any w.ismount then
    if points.any (h.later w).ismount then (1, h.later w) else (0, h.later w)
  else (0, w)

/-- `unmount_list_checked` (actions.py:115-143). -/
def unmountList (h : Host) (debug : Bool) (points : List Str) (w : World) : Except PyErr (Nat × World) :=
  if points = [] then .error .valueError
  else match unmountEach h debug points w with
    | .ok w' => .ok (status h points w')
    | .error e => .error e

/-! ## specification -/

/-- A program that unmounts at most the path it is given, does so if it says so, and mounts nothing. -/
def Sane (t : Tool) : Prop :=
  ∀ p w, ((t p w).1 = true → (t p w).2.mounted p = false) ∧ (∀ q, q ≠ p → (t p w).2.mounted q = w.mounted q) ∧
    (∀ q, (t p w).2.mounted q = true → w.mounted q = true) ∧ ∀ q, (t p w).2.dead q = w.dead q

/-- A program that unmounts all that is mounted. -/
def Works (t : Tool) : Prop := ∀ p w, w.mounted p = true → (t p w).1 = true

/-- All programs are sane, and mounts do not come back. -/
def SaneHost (h : Host) : Prop :=
  Sane h.fusermount ∧ (∀ t ∈ h.others, Sane t) ∧ Sane h.umount ∧
    ∀ w q, ((h.later w).mounted q = true → w.mounted q = true) ∧ (h.later w).dead q = w.dead q

/-- Success is reported only if nothing that was named is mounted any more. -/
def C163_statement : Prop :=
  ∀ (h : Host) (debug : Bool) (points : List Str) (w w' : World), SaneHost h → unmountList h debug points w = .ok (0, w') →
    ∀ p ∈ points, w'.mounted p = false

/-! ## proofs -/

/-- **C163**: the exit status is 0 exactly if none of the mount points that answer is mounted when the command ends, and 1 otherwise. -/
theorem C163_status (h : Host) (debug : Bool) (points : List Str) (w w' : World) (n : Nat) (ho : unmountList h debug points w = .ok (n, w')) :
    (n = 0 ∨ n = 1) ∧ (n = 0 ↔ ∀ p ∈ points, w'.mounted p = true → w'.dead p = true) := by
  unfold unmountList at ho
  split at ho
  · cases ho
  · cases he : unmountEach h debug points w with
    | error e => rw [he] at ho; cases ho
    | ok w1 =>
      rw [he] at ho
      replace ho : status h points w1 = (n, w') := by injection ho
      have key : ∀ v : World, points.any v.ismount = false ↔ ∀ p ∈ points, v.mounted p = true → v.dead p = true := by
        intro v
        rw [List.any_eq_false]
        constructor
        · intro hh p hp hm
          have := hh p hp
          unfold World.ismount at this
          rw [hm] at this
          simpa using this
        · intro hh p hp
          unfold World.ismount
          cases hm : v.mounted p with
          | false => simp
          | true => rw [hh p hp hm]; simp
      unfold status at ho
      split at ho
      · split at ho
        · next h2 =>
          cases ho
          refine ⟨.inr rfl, ⟨(fun h => by cases h), fun h => ?_⟩⟩
          rw [(key _).mpr h] at h2
          cases h2
        · next h2 =>
          cases ho
          exact ⟨.inl rfl, ⟨fun _ => (key _).mp (by simpa using h2), fun _ => rfl⟩⟩
      · next h1 =>
        cases ho
        exact ⟨.inl rfl, ⟨fun _ => (key _).mp (by simpa using h1), fun _ => rfl⟩⟩

/-- What remains of a mount, and what is left alone. -/
structure Keeps (p : Str) (w w' : World) : Prop where
  others : ∀ q, q ≠ p → w'.mounted q = w.mounted q
  less : ∀ q, w'.mounted q = true → w.mounted q = true
  dead : ∀ q, w'.dead q = w.dead q

theorem Keeps.refl (p : Str) (w : World) : Keeps p w w := ⟨fun _ _ => rfl, fun _ h => h, fun _ => rfl⟩

theorem Keeps.trans {p : Str} {u v w : World} (h1 : Keeps p u v) (h2 : Keeps p v w) : Keeps p u w :=
  ⟨fun q hq => (h2.others q hq).trans (h1.others q hq), fun q hq => h1.less q (h2.less q hq), fun q => (h2.dead q).trans (h1.dead q)⟩

theorem Sane.keeps {t : Tool} (h : Sane t) (p : Str) (w : World) : Keeps p w (t p w).2 :=
  ⟨(h p w).2.1, (h p w).2.2.1, (h p w).2.2.2⟩

/-- What is known after a step. -/
def Step.Good (p : Str) (w : World) (ok : Bool) : Step → Prop
  | .done w' => Keeps p w w' ∧ w'.mounted p = false
  | .next w' => Keeps p w w' ∧ (ok = true → w'.mounted p = false)
  | .raised => True

theorem attempt_good (h : Host) (debug : Bool) (t : Tool) (p : Str) (w : World) (ht : Sane t) : (attempt h debug t p w).Good p w false := by
  unfold attempt failed
  split
  · next h1 => exact ⟨ht.keeps p w, (ht p w).1 h1⟩
  · split
    · trivial
    · exact ⟨ht.keeps p w, fun h => by cases h⟩

theorem tryOthers_good (h : Host) (debug : Bool) (p : Str) : ∀ (ts : List Tool) (w : World), (∀ t ∈ ts, Sane t) →
    (tryOthers h debug p ts w).Good p w false := by
  intro ts
  induction ts with
  | nil => intro w _; exact ⟨.refl p w, fun h => by cases h⟩
  | cons t ts ih =>
    intro w hs
    have ha := attempt_good h debug t p w (hs t (by simp))
    unfold tryOthers
    cases hat : attempt h debug t p w with
    | done w' => rw [hat] at ha; exact ha
    | raised => trivial
    | next w' =>
      rw [hat] at ha
      have hr := ih w' (fun t ht => hs t (List.mem_cons_of_mem _ ht))
      simp only
      cases hto : tryOthers h debug p ts w' with
      | done v => rw [hto] at hr; exact ⟨ha.1.trans hr.1, hr.2⟩
      | next v => rw [hto] at hr; exact ⟨ha.1.trans hr.1, fun h => by cases h⟩
      | raised => trivial

theorem not_raised (h : Host) (debug : Bool) (hd : debug = true → h.installed = true) (t : Tool) (p : Str) (w : World) :
    attempt h debug t p w ≠ .raised := by
  unfold attempt failed
  split
  · intro h; cases h
  · rw [if_neg]
    · intro h; cases h
    · cases debug with
      | false => simp
      | true => rw [hd rfl]; simp

theorem others_not_raised (h : Host) (debug : Bool) (hd : debug = true → h.installed = true) (p : Str) : ∀ (ts : List Tool) (w : World),
    tryOthers h debug p ts w ≠ .raised := by
  intro ts
  induction ts with
  | nil => intro w h; cases h
  | cons t ts ih =>
    intro w
    unfold tryOthers
    cases hat : attempt h debug t p w with
    | done w' => intro h; cases h
    | next w' => exact ih w'
    | raised => exact absurd hat (not_raised h debug hd t p w)

theorem finally_keeps (h : Host) (hu : Sane h.umount) (p : Str) (w : World) : Keeps p w (finally_ h p w) := by
  unfold finally_
  split
  · exact hu.keeps p w
  · exact .refl p w

/-- A call of `unmount` keeps what is not named. -/
theorem unmount_keeps (h : Host) (debug : Bool) (p : Str) (w w' : World) (hs : SaneHost h) (ho : unmount h debug p w = .ok w') : Keeps p w w' := by
  have ha := attempt_good h debug h.fusermount p w hs.1
  unfold unmount at ho
  cases hat : attempt h debug h.fusermount p w with
  | done v => rw [hat] at ho ha; cases ho; exact ha.1
  | raised => rw [hat] at ho; cases ho
  | next v =>
    rw [hat] at ho ha
    simp only at ho
    refine ha.1.trans ?_
    unfold fallback at ho
    split at ho
    · next v' hst =>
      cases ho
      split at hst
      · have hg := tryOthers_good h debug p h.others v hs.2.1
        rw [hst] at hg
        exact hg.1
      · cases hst
    · next v' hst =>
      cases ho
      split at hst
      · have hg := tryOthers_good h debug p h.others v hs.2.1
        rw [hst] at hg
        exact hg.1.trans (finally_keeps h hs.2.2.1 p v')
      · cases hst
        exact finally_keeps h hs.2.2.1 p _
    · cases ho

/-- **C163**: whatever the programs do, only the mount point that was named is unmounted. -/
theorem C163_others (h : Host) (debug : Bool) (p : Str) (w w' : World) (hs : SaneHost h) (ho : unmount h debug p w = .ok w') (q : Str) (hq : q ≠ p) :
    w'.mounted q = w.mounted q :=
  (unmount_keeps h debug p w w' hs ho).others q hq

/-- **C163** (partial): a mount point that answers is unmounted if any of the programs works: the first `fusermount`, another one, or
`umount`. Missing: mount points whose process was killed, for which only the first `fusermount` is tried, and debug messages on hosts without
`fusermount`. -/
theorem C163_works_partial (h : Host) (debug : Bool) (p : Str) (w : World) (hs : SaneHost h) (hd : debug = true → h.installed = true)
    (hl : w.dead p = false) (hw : Works h.fusermount ∨ (∃ t ∈ h.others, Works t) ∨ Works h.umount) :
    ∃ w', unmount h debug p w = .ok w' ∧ w'.mounted p = false := by
  have ha := attempt_good h debug h.fusermount p w hs.1
  have hnr := not_raised h debug hd h.fusermount p w
  unfold unmount
  cases hat : attempt h debug h.fusermount p w with
  | raised => exact absurd hat hnr
  | done v => rw [hat] at ha; exact ⟨v, rfl, ha.2⟩
  | next v =>
    rw [hat] at ha
    simp only
    have hdv : v.dead p = false := by rw [ha.1.dead, hl]
    unfold fallback
    cases hm : v.mounted p with
    | false =>
      have hi : v.ismount p = false := by unfold World.ismount; rw [hm]; rfl
      rw [hi]
      refine ⟨_, rfl, ?_⟩
      unfold finally_
      rw [hi]
      exact hm
    | true =>
      have hi : v.ismount p = true := by unfold World.ismount; rw [hm, hdv]; rfl
      rw [hi, if_pos rfl]
      have hg := tryOthers_good h debug p h.others v hs.2.1
      cases hto : tryOthers h debug p h.others v with
      | raised => exact absurd hto (others_not_raised h debug hd p _ _)
      | done u => rw [hto] at hg; exact ⟨u, rfl, hg.2⟩
      | next u =>
        rw [hto] at hg
        refine ⟨_, rfl, ?_⟩
        unfold finally_
        cases hmu : u.mounted p with
        | false =>
          have hi : u.ismount p = false := by unfold World.ismount; rw [hmu]; rfl
          rw [hi]
          exact hmu
        | true =>
          have hiu : u.ismount p = true := by unfold World.ismount; rw [hmu, hg.1.dead, hdv]; rfl
          rw [hiu, if_pos rfl]
          rcases hw with hw | ⟨t, ht, hw⟩ | hw
          · exfalso
            unfold attempt at hat
            rw [if_pos (hw p w (ha.1.less p hm))] at hat
            cases hat
          · exfalso
            have hall : ∀ (ts : List Tool) (v : World), (∀ t ∈ ts, Sane t) → t ∈ ts → tryOthers h debug p ts v = .next u → False := by
              intro ts
              induction ts with
              | nil => intro v _ ht _; cases ht
              | cons s ss ih =>
                intro v hss ht hto
                unfold tryOthers at hto
                cases has : attempt h debug s p v with
                | done x => rw [has] at hto; cases hto
                | raised => rw [has] at hto; cases hto
                | next x =>
                  rw [has] at hto
                  have hax := attempt_good h debug s p v (hss s (by simp))
                  rw [has] at hax
                  have hgx := tryOthers_good h debug p ss x (fun t ht => hss t (List.mem_cons_of_mem _ ht))
                  simp only at hto
                  rw [hto] at hgx
                  have hmv : v.mounted p = true := hax.1.less p (hgx.1.less p hmu)
                  rcases List.mem_cons.mp ht with rfl | ht
                  · unfold attempt at has
                    rw [if_pos (hw p v hmv)] at has
                    cases has
                  · exact ih x (fun t ht => hss t (List.mem_cons_of_mem _ ht)) ht hto
            exact hall h.others v hs.2.1 ht hto
          · exact (hs.2.2.1 p u).1 (hw p u hmu)

/-- **C163** (partial): if one of the programs works, all mount points that answer are unmounted, all others stay, and the exit status is 0. -/
theorem C163_list_partial (h : Host) (debug : Bool) (points : List Str) (w : World) (hne : points ≠ []) (hs : SaneHost h)
    (hd : debug = true → h.installed = true) (hl : ∀ p ∈ points, w.dead p = false)
    (hw : Works h.fusermount ∨ (∃ t ∈ h.others, Works t) ∨ Works h.umount) :
    ∃ w', unmountList h debug points w = .ok (0, w') ∧ (∀ p ∈ points, w'.mounted p = false) ∧ ∀ q, q ∉ points → w'.mounted q = w.mounted q := by
  have key : ∀ (ps : List Str) (w : World), (∀ p ∈ ps, w.dead p = false) → ∃ w', unmountEach h debug ps w = .ok w' ∧
      (∀ p ∈ ps, w'.mounted p = false) ∧ (∀ q, w'.mounted q = true → w.mounted q = true) ∧ ∀ q, q ∉ ps → w'.mounted q = w.mounted q := by
    intro ps
    induction ps with
    | nil => intro w _; exact ⟨w, rfl, fun _ h => (by cases h), fun _ h => h, fun _ _ => rfl⟩
    | cons p ps ih =>
      intro w hl
      obtain ⟨v, h1, h2⟩ := C163_works_partial h debug p w hs hd (hl p (by simp)) hw
      have hk := unmount_keeps h debug p w v hs h1
      obtain ⟨u, h3, h4, h5, h6⟩ := ih v (fun q hq => by rw [hk.dead]; exact hl q (List.mem_cons_of_mem _ hq))
      refine ⟨u, ?_, ?_, fun q hq => hk.less q (h5 q hq), ?_⟩
      · unfold unmountEach
        rw [h1]
        exact h3
      · intro q hq
        rcases List.mem_cons.mp hq with rfl | hq
        · cases hm : u.mounted q with
          | false => rfl
          | true => rw [h5 q hm] at h2; cases h2
        · exact h4 q hq
      · intro q hq
        rw [h6 q (fun hm => hq (List.mem_cons_of_mem _ hm)), hk.others q (fun he => hq (by rw [he]; simp))]
  obtain ⟨u, h1, h2, h3, h4⟩ := key points w hl
  refine ⟨u, ?_, h2, h4⟩
  unfold unmountList
  rw [if_neg hne, h1]
  simp only
  unfold status
  rw [if_neg]
  rw [List.any_eq_true]
  rintro ⟨p, hp, hm⟩
  unfold World.ismount at hm
  rw [h2 p hp] at hm
  cases hm

/-- A program that unmounts. -/
def good : Tool := fun p w => (true, ⟨fun q => if q = p then false else w.mounted q, w.dead⟩)

/-- A program that fails. -/
def bad : Tool := fun _ w => (false, w)

theorem good_sane : Sane good := by
  intro p w
  refine ⟨fun _ => if_pos rfl, fun q hq => if_neg hq, fun q hq => ?_, fun q => rfl⟩
  replace hq : (if q = p then false else w.mounted q) = true := hq
  split at hq
  · cases hq
  · exact hq

theorem bad_sane : Sane bad := fun _ _ => ⟨(fun h => by cases h), fun _ _ => rfl, fun _ h => h, fun _ => rfl⟩

/-- A host on which only `umount` can unmount. -/
def demoHost (installed : Bool) : Host := ⟨installed, bad, [], good, id⟩

theorem demo_sane (installed : Bool) : SaneHost (demoHost installed) :=
  ⟨bad_sane, fun _ h => (by cases h), good_sane, fun _ _ => ⟨fun h => h, rfl⟩⟩

/-- **C163**: the statement is violated: the process of a mount was killed and the first `fusermount` fails; then nothing else is tried, the
mount stays, and the exit status is 0. -/
theorem C163_violated : ¬C163_statement := by
  intro h
  have := h (demoHost true) false ["/m".toList] ⟨fun _ => true, fun _ => true⟩ ⟨fun _ => true, fun _ => true⟩ (demo_sane true) rfl "/m".toList
    (by simp)
  cases this

/-- **C163**: with debug messages on a host without `fusermount`, the command raises and nothing is unmounted, although `umount` works. -/
theorem C163_debug_violated :
    ¬∀ (h : Host) (debug : Bool) (p : Str) (w : World), SaneHost h → w.dead p = false → Works h.umount → ∃ w', unmount h debug p w = .ok w' := by
  intro h
  obtain ⟨w', hw⟩ := h (demoHost false) true "/m".toList ⟨fun _ => true, fun _ => false⟩ (demo_sane false) rfl (fun _ _ _ => rfl)
  cases hw

/-- **C163**: a command without mount points raises. -/
theorem C163_none (h : Host) (debug : Bool) (w : World) : unmountList h debug [] w = .error .valueError := rfl

example : ∃ w', unmountList (demoHost true) true ["/m".toList, "/n".toList] ⟨fun _ => true, fun _ => false⟩ = .ok (0, w') ∧
    w'.mounted "/m".toList = false ∧ w'.mounted "/n".toList = false ∧ w'.mounted "/o".toList = true := ⟨_, rfl, rfl, rfl, rfl⟩

example : Works (demoHost true).umount := fun _ _ _ => rfl

end Verif.Unmount
