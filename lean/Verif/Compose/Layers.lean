import Verif.Compose.Automount
import Verif.Compose.Prefix

/-!
# C32: stacks of layers and the `userdata` they share

Every layer pushes something onto `FileInfo.userdata` when metadata passes through it and pops it before it passes the
object on. The object is shared: what a layer pops or pushes is visible to everybody who holds it. Modelled is what
`open` and `get_mount_source` do to the caller's object, and which source is finally called with what. `read` is written
like `open` in every layer. Listings are not included: their metadata is not tagged by most layers.
-/

namespace Verif.Compose

open Verif.Py Verif.Index

/-- What happened in a call of `open`: the innermost source that was called, with its argument; the result; and the
caller's object afterwards (MountSource.py:69-74). -/
structure Opened where
  reached : Option (Nat × FileInfo)
  result : Except PyErr Nat
  after : FileInfo

/-- The result of `get_mount_source`: how the returned source opens files, the returned metadata, and whether the latter is
the caller's own object (MountSource.py:104-109). -/
structure Ref where
  target : FileInfo → Opened
  info : FileInfo
  shared : Bool

/-- A mount source as far as C32 is concerned (MountSource.py:38-139). `gives i o` says that `lookup` can return `i`, and that it stems from the
source and metadata `o`, or that a layer made it up. -/
structure MS where
  gives : FileInfo → Option (Nat × FileInfo) → Prop
  open_ : FileInfo → Opened
  gms : FileInfo → Option Ref

/-- `userdata.pop()` (union.py:195, versioning.py:237, subvolumes.py:175). -/
def popped (i : FileInfo) : FileInfo := { i with userdata := i.userdata.drop 1 }

/-- A source that is no layer. It uses the default `get_mount_source` (MountSource.py:104-109). `f` is what opening does. -/
def MS.base (id : Nat) (f : FileInfo → Except PyErr Nat) : MS where
  gives i o := o = some (id, i)
  open_ i := ⟨some (id, i), f i, i⟩
  gms i := some ⟨fun i => ⟨some (id, i), f i, i⟩, i, true⟩

/-- The `finally` clauses (union.py:199-200, versioning.py:242-243). -/
def Opened.append (o : Opened) (t : Tag) : Opened := { o with after := o.after.push t }

/-- UnionMountSource.open (union.py:194-200). -/
def unionOpen (child : Nat → Option MS) (i : FileInfo) : Opened :=
  match i.userdata with
  | [] => ⟨none, .error .indexError, i⟩
  | .source id :: _ =>
    match child id with
    | some c => (c.open_ (popped i)).append (.source id)
    | none => (⟨none, .error .assertionError, popped i⟩ : Opened).append (.source id)
  | t :: _ => (⟨none, .error .assertionError, popped i⟩ : Opened).append t

/-- UnionMountSource.get_mount_source (union.py:219-230): a copy is passed on. -/
def unionGms (child : Nat → Option MS) (i : FileInfo) : Option Ref :=
  match i.userdata with
  | [] => none
  | .source id :: _ =>
    match child id with
    | some c => (c.gms (popped i)).map (fun r => { r with shared := false })
    | none => some ⟨unionOpen child, i, true⟩
  | _ :: _ => some ⟨unionOpen child, i, true⟩

/-- UnionMountSource (union.py:105-146, 194-237). `child` finds the sources by their identity. -/
def MS.union (child : Nat → Option MS) : MS where
  gives i o := (∃ id c j, child id = some c ∧ c.gives j o ∧ i = j.push (.source id)) ∨ (i = rootInfo [.none] ∧ o = none)
  open_ := unionOpen child
  gms := unionGms child

/-- FileVersionLayer.open (versioning.py:236-243). -/
def versionsOpen (m : MS) (i : FileInfo) : Opened :=
  match i.userdata with
  | [] => ⟨none, .error .indexError, i⟩
  | .file :: _ => (m.open_ (popped i)).append .file
  | t :: _ => (⟨none, .error .fileNotFound, popped i⟩ : Opened).append t

/-- FileVersionLayer.get_mount_source (versioning.py:256-263): no copy is made; the tag that the `finally` clause pushes back
is pushed onto the returned object if that is the caller's. -/
def versionsGms (m : MS) (i : FileInfo) : Option Ref :=
  match i.userdata with
  | [] => none
  | .versionsFolder :: _ => some ⟨versionsOpen m, i, true⟩
  | t :: _ => (m.gms (popped i)).map (fun r => if r.shared then { r with info := r.info.push t } else r)

/-- FileVersionLayer (versioning.py:191-263). -/
def MS.versions (m : MS) : MS where
  gives i o := (∃ j, m.gives j o ∧ i = j.push .file) ∨ (i.userdata = [.versionsFolder] ∧ isDir i.mode = true ∧ o = none)
  open_ := versionsOpen m
  gms := versionsGms m

/-- RemovePrefixMountSource.open (removeprefix.py:64-68); `d` is `self._directory_info`. -/
def prefixOpen (d : FileInfo) (m : MS) (i : FileInfo) : Opened :=
  if i = d then ⟨none, .error .fileNotFound, i⟩ else m.open_ i

/-- RemovePrefixMountSource (removeprefix.py:46-80). -/
def MS.removePrefix (d : FileInfo) (m : MS) : MS where
  gives i o := m.gives i o ∨ (i = d ∧ o = none)
  open_ := prefixOpen d m
  gms i := if i = d then some ⟨prefixOpen d m, i, true⟩ else m.gms i

/-- SubvolumesMountSource.open (subvolumes.py:174-181). The exception at 177 is raised outside of the `try`. -/
def subvolumesOpen (mounts : Dict Str MS) (i : FileInfo) : Opened :=
  match i.userdata with
  | [] => ⟨none, .error .indexError, i⟩
  | .none :: _ => ⟨none, .error .valueError, popped i⟩
  | .str name :: _ =>
    match mounts.get? name with
    | some m => (m.open_ (popped i)).append (.str name)
    | none => (⟨none, .error .keyError, popped i⟩ : Opened).append (.str name)
  | t :: _ => (⟨none, .error .keyError, popped i⟩ : Opened).append t

/-- SubvolumesMountSource.get_mount_source (subvolumes.py:210-219): a copy is passed on. -/
def subvolumesGms (mounts : Dict Str MS) (i : FileInfo) : Option Ref :=
  match i.userdata with
  | [] => none
  | .str name :: _ =>
    match mounts.get? name with
    | some m => (m.gms (popped i)).map (fun r => { r with shared := false })
    | none => some ⟨subvolumesOpen mounts, i, true⟩
  | _ :: _ => some ⟨subvolumesOpen mounts, i, true⟩

/-- SubvolumesMountSource (subvolumes.py:127-140, 174-219) with mount points in the root. See C39 for deeper ones. -/
def MS.subvolumes (mounts : Dict Str MS) : MS where
  gives i o := (∃ name m j, mounts.get? name = some m ∧ m.gives j o ∧ i = j.push (.str name)) ∨ (i = rootInfo [.none] ∧ o = none)
  open_ := subvolumesOpen mounts
  gms := subvolumesGms mounts

/-- AutoMountLayer.get_mount_source (automount.py:399-409). -/
def autoGms (mounted : Dict Str MS) (i : FileInfo) : Option Ref :=
  match i.userdata with
  | .str mp :: _ =>
    match mounted.get? mp with
    | some m => (m.gms (popped i)).map (fun r => { r with shared := false })
    | none => none
  | _ => none

/-- AutoMountLayer.open (automount.py:369-372). -/
def autoOpen (mounted : Dict Str MS) (i : FileInfo) : Opened :=
  match autoGms mounted i with
  | some r => { r.target r.info with after := i }
  | none => ⟨none, .error .assertionError, i⟩

/-- AutoMountLayer (automount.py:272-310, 369-409). -/
def MS.auto (mounted : Dict Str MS) : MS where
  gives i o := (∃ mp m j, mounted.get? mp = some m ∧ m.gives j o ∧ i = j.push (.str mp)) ∨
    (∃ mp, i.userdata = [.str mp] ∧ isDir i.mode = true ∧ o = none)
  open_ := autoOpen mounted
  gms := autoGms mounted

/-! ## what lookups push

The layers' lookups, as modelled in the other files, return what `gives` says. -/

theorem lookupBack_tagged (path : Str) (ss : List Source) : ∀ (v : Int) (i : FileInfo), lookupBack path ss v = some i →
    ∃ s ∈ ss, ∃ w j, s.lookup path w = some j ∧ i = j.push (.source s.id) := by
  induction ss with
  | nil => intro v i h; cases h
  | cons s ss ih =>
    intro v i h
    simp only [lookupBack] at h
    cases hl : s.lookup path v with
    | some j => rw [hl] at h; cases h; exact ⟨s, by simp, v, j, hl, rfl⟩
    | none =>
      rw [hl] at h
      simp only at h
      split at h
      · cases h
      · obtain ⟨t, ht, h'⟩ := ih _ _ h
        exact ⟨t, by simp [ht], h'⟩

theorem lookupForth_tagged (path : Str) (ss : List Source) : ∀ (v : Int) (i : FileInfo), lookupForth path ss v = some i →
    ∃ s ∈ ss, ∃ w j, s.lookup path w = some j ∧ i = j.push (.source s.id) := by
  induction ss with
  | nil => intro v i h; cases h
  | cons s ss ih =>
    intro v i h
    simp only [lookupForth] at h
    cases hl : s.lookup path v with
    | some j => rw [hl] at h; cases h; exact ⟨s, by simp, v, j, hl, rfl⟩
    | none =>
      rw [hl] at h
      simp only at h
      split at h
      · cases h
      · obtain ⟨t, ht, h'⟩ := ih _ _ h
        exact ⟨t, by simp [ht], h'⟩

/-- **C32**, what the lookup returns. -/
theorem C32_union_tags (u : Union) (path : Str) (v : Int) (i : FileInfo) (h : u.lookup path v = some i) :
    i = rootInfo [.none] ∨ ∃ s ∈ u.sources, ∃ w j, s.lookup path w = some j ∧ i = j.push (.source s.id) := by
  unfold Union.lookup at h
  split at h
  · cases h; exact .inl rfl
  · right
    unfold lookupIn at h
    split at h
    · obtain ⟨s, hs, h'⟩ := lookupBack_tagged path _ _ _ h
      exact ⟨s, (List.mem_filter.mp (List.mem_reverse.mp hs)).1, h'⟩
    · obtain ⟨s, hs, h'⟩ := lookupForth_tagged path _ _ _ h
      exact ⟨s, (List.mem_filter.mp hs).1, h'⟩

/-- **C32**, what the lookup returns. -/
theorem C32_versions_tags (s : Source) (mp : FileInfo → Str) (path : Str) (i : FileInfo) (h : vlookup s mp path 0 = .ok (some i)) :
    (i.userdata = [.versionsFolder] ∧ isDir i.mode = true) ∨ ∃ q w j, s.lookup q w = some j ∧ i = j.push .file := by
  unfold vlookup at h
  simp only [ne_eq, not_true_eq_false, if_false] at h
  cases hr : resolve s mp path with
  | some j =>
    rw [hr] at h
    cases h
    right
    cases hl : s.lookup path 0 with
    | none => unfold resolve at hr; rw [hl] at hr; cases hr
    | some k =>
      obtain ⟨q, w, h'⟩ := (C36_bounded s mp path k hl).2.2 j hr
      exact ⟨q, w, j, h', rfl⟩
  | none =>
    rw [hr] at h
    simp only at h
    cases hd : decodeVersions s path with
    | none => rw [hd] at h; cases h
    | some r =>
      obtain ⟨p, b, k⟩ := r
      rw [hd] at h
      cases b with
      | true =>
        simp only at h
        cases hl : s.lookup p 0 with
        | none => rw [hl] at h; cases h
        | some parent => rw [hl] at h; cases h; exact .inl ⟨rfl, by show isDir 16895 = true; decide⟩
      | false =>
        simp only [Except.ok.injEq] at h
        cases hl : s.lookup p k with
        | none => rw [hl] at h; cases h
        | some j => rw [hl] at h; cases h; exact .inr ⟨p, k, j, hl, rfl⟩

/-- **C32**, what the lookup returns. -/
theorem C32_prefix_tags (pre : Str) (s : Source) (path : Str) (v : Int) (i : FileInfo) (h : plookup pre s path v = some i) :
    i = rootInfo [] ∨ ∃ q, s.lookup q 0 = some i := by
  unfold plookup parsePath at h
  simp only at h
  split at h
  · exact .inr ⟨_, h⟩
  · split at h
    · cases h; exact .inl rfl
    · cases h

/-- **C32**, what the lookup returns. -/
theorem C32_subvolumes_tags (t : Node Source) (path : Str) (v : Int) (i : FileInfo) (h : slookup t path v = some i) :
    i = rootInfo [.none] ∨ ∃ sub subpath s j, findMountSource path t = some (sub, subpath, .mount s) ∧ s.lookup subpath v = some j ∧
      i = j.push (.str sub) := by
  unfold slookup at h
  split at h
  · cases h
  · cases h; exact .inl rfl
  · next sub subpath s hf =>
    cases hl : s.lookup subpath v with
    | none => rw [hl] at h; cases h
    | some j => rw [hl] at h; cases h; exact .inr ⟨sub, subpath, s, j, hf, hl, rfl⟩

/-- **C32**, what the lookup returns. -/
theorem C32_auto_tags (st : Mounted) (path : Str) (v : Int) (i : FileInfo) (h : alookup st path v = some i) :
    (∃ mp mi, st.get? mp = some mi ∧ i = mi.root) ∨
    ∃ mp mi q w j, st.get? mp = some mi ∧ mi.source.lookup q w = some j ∧ i = j.push (.str mp) := by
  unfold alookup at h
  cases h1 : st.get? (findMounted st.keys path).1 with
  | none => rw [h1] at h; cases h
  | some mi =>
    cases h2 : st.get? ['/'] with
    | none => rw [h1, h2] at h; cases h
    | some root =>
      rw [h1, h2] at h
      simp only at h
      split at h
      · cases h; exact .inl ⟨_, _, h1, rfl⟩
      · generalize (if (findMounted st.keys path).1 ≠ ['/'] ∧ (findMounted st.keys path).2 = ['/'] then root.source.versions path else 0) = n at h
        split at h
        · obtain ⟨j, hj, rfl⟩ := Option.map_eq_some_iff.mp h
          exact .inr ⟨_, _, _, _, j, h1, hj, rfl⟩
        · obtain ⟨j, hj, rfl⟩ := Option.map_eq_some_iff.mp h
          exact .inr ⟨_, _, _, _, j, h2, hj, rfl⟩

/-! ## C32 -/

/-- All stacks. -/
inductive Stacked : MS → Prop where
  | base (id : Nat) (f : FileInfo → Except PyErr Nat) : Stacked (.base id f)
  | union (child : Nat → Option MS) : (∀ id c, child id = some c → Stacked c) → Stacked (.union child)
  | versions (m : MS) : Stacked m → Stacked (.versions m)
  | removePrefix (d : FileInfo) (m : MS) : isDir d.mode = true → Stacked m → Stacked (.removePrefix d m)
  | subvolumes (mounts : Dict Str MS) : (∀ name m, mounts.get? name = some m → Stacked m) → Stacked (.subvolumes mounts)
  | auto (mounted : Dict Str MS) : (∀ mp m, mounted.get? mp = some m → Stacked m) → Stacked (.auto mounted)

/-- The full statement of C32: opening with metadata that a lookup returned reaches the source it stems from, with the
metadata that source returned, and leaves the caller's object as it was. -/
def C32_statement : Prop :=
  ∀ (m : MS), Stacked m → ∀ i o, m.gives i o →
    (m.open_ i).after = i ∧ ∀ id own, o = some (id, own) → isDir own.mode = false → (m.open_ i).reached = some (id, own)

theorem push_popped (i : FileInfo) (t : Tag) (rest : List Tag) (h : i.userdata = t :: rest) : (popped i).push t = i := by
  unfold popped FileInfo.push
  rw [h]
  simp only [List.drop_succ_cons, List.drop_zero]
  rw [← h]

theorem popped_push (i : FileInfo) (t : Tag) : popped (i.push t) = i := rfl

/-- Layers that leave every object as it was, whether a lookup returned it or not. -/
inductive Restoring : MS → Prop where
  | base (id : Nat) (f : FileInfo → Except PyErr Nat) : Restoring (.base id f)
  | union (child : Nat → Option MS) : (∀ id c, child id = some c → Restoring c) → Restoring (.union child)
  | versions (m : MS) : Restoring m → Restoring (.versions m)
  | removePrefix (d : FileInfo) (m : MS) : Restoring m → Restoring (.removePrefix d m)
  | auto (mounted : Dict Str MS) : Restoring (.auto mounted)

/-- **C32**, the caller's object: in stacks without sub-volumes it is the same after opening, for arbitrary objects, and
whether opening fails or not. Above an auto-mount layer this holds whatever is mounted there. Missing from the full
claim: folders of sub-volume mounts. -/
theorem C32_restored_partial (m : MS) (h : Restoring m) : ∀ i, (m.open_ i).after = i := by
  induction h with
  | base id f => intro i; rfl
  | union child _ ih =>
    intro i
    show (unionOpen child i).after = i
    unfold unionOpen
    split
    · rfl
    · next id rest hu =>
      cases hc : child id with
      | none => exact push_popped i _ rest hu
      | some c =>
        show ((c.open_ (popped i)).after).push (.source id) = i
        rw [ih id c hc]
        exact push_popped i _ rest hu
    · next t rest _ hu => exact push_popped i _ rest hu
  | versions m _ ih =>
    intro i
    show (versionsOpen m i).after = i
    unfold versionsOpen
    split
    · rfl
    · next rest hu =>
      show ((m.open_ (popped i)).after).push .file = i
      rw [ih]
      exact push_popped i _ rest hu
    · next t rest _ hu => exact push_popped i _ rest hu
  | removePrefix d m _ ih =>
    intro i
    show (prefixOpen d m i).after = i
    unfold prefixOpen
    split
    · rfl
    · exact ih i
  | auto mounted =>
    intro i
    show (autoOpen mounted i).after = i
    unfold autoOpen
    split <;> rfl

/-- Stacks with two properties: `direct`, `get_mount_source` finds the source and its metadata; `copies`, it does so with a copy.
Missing are auto-mount layers above version layers whose source does not copy. -/
inductive Sound : Bool → Bool → MS → Prop where
  | base (id : Nat) (f : FileInfo → Except PyErr Nat) : Sound true false (.base id f)
  | union (direct : Bool) (child : Nat → Option MS) : (∀ id c, child id = some c → Sound direct false c) →
      Sound direct true (.union child)
  | versions (m : MS) : Sound true true m → Sound true true (.versions m)
  | versionsShared (direct copies : Bool) (m : MS) : Sound direct copies m → Sound false false (.versions m)
  | removePrefix (direct copies : Bool) (d : FileInfo) (m : MS) : isDir d.mode = true → Sound direct copies m →
      Sound direct copies (.removePrefix d m)
  | subvolumes (direct : Bool) (mounts : Dict Str MS) : (∀ name m, mounts.get? name = some m → Sound direct false m) →
      Sound direct true (.subvolumes mounts)
  | auto (mounted : Dict Str MS) : (∀ mp m, mounted.get? mp = some m → Sound true false m) → Sound true true (.auto mounted)
  | weaken (direct copies : Bool) (m : MS) : Sound direct copies m → Sound direct false m

/-- What is shown by induction. -/
structure SoundAt (direct copies : Bool) (m : MS) : Prop where
  mode : ∀ i id own, m.gives i (some (id, own)) → i.mode = own.mode
  opens : ∀ i id own, m.gives i (some (id, own)) → isDir own.mode = false → (m.open_ i).reached = some (id, own) ∧ (m.open_ i).after = i
  finds : direct = true → ∀ i id own, m.gives i (some (id, own)) → isDir own.mode = false →
    ∃ r, m.gms i = some r ∧ (r.target r.info).reached = some (id, own)
  copied : copies = true → ∀ i id own, m.gives i (some (id, own)) → isDir own.mode = false → ∀ r, m.gms i = some r → r.shared = false

theorem unionGms_push (child : Nat → Option MS) (id : Nat) (c : MS) (j : FileInfo) (h : child id = some c) :
    unionGms child (j.push (.source id)) = (c.gms j).map (fun r => { r with shared := false }) := by
  simp only [unionGms, FileInfo.push, h]
  rfl

theorem subvolumesGms_push (mounts : Dict Str MS) (name : Str) (c : MS) (j : FileInfo) (h : mounts.get? name = some c) :
    subvolumesGms mounts (j.push (.str name)) = (c.gms j).map (fun r => { r with shared := false }) := by
  simp only [subvolumesGms, FileInfo.push, h]
  rfl

theorem autoGms_push (mounted : Dict Str MS) (mp : Str) (c : MS) (j : FileInfo) (h : mounted.get? mp = some c) :
    autoGms mounted (j.push (.str mp)) = (c.gms j).map (fun r => { r with shared := false }) := by
  simp only [autoGms, FileInfo.push, h]
  rfl

theorem versionsGms_push (m : MS) (j : FileInfo) :
    versionsGms m (j.push .file) = (m.gms j).map (fun r => if r.shared then { r with info := r.info.push .file } else r) := rfl

theorem unionOpen_push (child : Nat → Option MS) (id : Nat) (c : MS) (j : FileInfo) (h : child id = some c) :
    unionOpen child (j.push (.source id)) = (c.open_ j).append (.source id) := by
  simp only [unionOpen, FileInfo.push, h]
  rfl

theorem subvolumesOpen_push (mounts : Dict Str MS) (name : Str) (c : MS) (j : FileInfo) (h : mounts.get? name = some c) :
    subvolumesOpen mounts (j.push (.str name)) = (c.open_ j).append (.str name) := by
  simp only [subvolumesOpen, FileInfo.push, h]
  rfl

theorem versionsOpen_push (m : MS) (j : FileInfo) : versionsOpen m (j.push .file) = (m.open_ j).append .file := rfl

theorem sound (direct copies : Bool) (m : MS) (h : Sound direct copies m) : SoundAt direct copies m := by
  induction h with
  | base id f =>
    refine ⟨?_, ?_, ?_, fun h => by cases h⟩
    · intro i id' own h; cases h; rfl
    · intro i id' own h _; cases h; exact ⟨rfl, rfl⟩
    · intro _ i id' own h _; cases h; exact ⟨_, rfl, rfl⟩
  | union direct child _ ih =>
    refine ⟨?_, ?_, ?_, ?_⟩
    · intro i id own h
      rcases h with ⟨cid, c, j, hc, hj, rfl⟩ | ⟨_, h⟩
      · exact (ih cid c hc).mode j id own hj
      · cases h
    · intro i id own h hd
      rcases h with ⟨cid, c, j, hc, hj, rfl⟩ | ⟨_, h⟩
      · obtain ⟨h1, h2⟩ := (ih cid c hc).opens j id own hj hd
        show (unionOpen child _).reached = _ ∧ (unionOpen child _).after = _
        rw [unionOpen_push child cid c j hc]
        refine ⟨h1, ?_⟩
        show (c.open_ j).after.push (.source cid) = _
        rw [h2]
      · cases h
    · intro hdir i id own h hd
      rcases h with ⟨cid, c, j, hc, hj, rfl⟩ | ⟨_, h⟩
      · obtain ⟨r, h1, h2⟩ := (ih cid c hc).finds hdir j id own hj hd
        exact ⟨{ r with shared := false }, (unionGms_push child cid c j hc).trans (by rw [h1]; rfl), h2⟩
      · cases h
    · intro _ i id own h hd r hr
      rcases h with ⟨cid, c, j, hc, hj, rfl⟩ | ⟨_, h⟩
      · obtain ⟨r', _, rfl⟩ := Option.map_eq_some_iff.mp ((unionGms_push child cid c j hc).symm.trans hr)
        rfl
      · cases h
  | versions m _ ih =>
    refine ⟨?_, ?_, ?_, ?_⟩
    · intro i id own h
      rcases h with ⟨j, hj, rfl⟩ | ⟨_, _, h⟩
      · exact ih.mode j id own hj
      · cases h
    · intro i id own h hd
      rcases h with ⟨j, hj, rfl⟩ | ⟨_, _, h⟩
      · obtain ⟨h1, h2⟩ := ih.opens j id own hj hd
        show (versionsOpen m _).reached = _ ∧ (versionsOpen m _).after = _
        rw [versionsOpen_push]
        refine ⟨h1, ?_⟩
        show (m.open_ j).after.push .file = _
        rw [h2]
      · cases h
    · intro _ i id own h hd
      rcases h with ⟨j, hj, rfl⟩ | ⟨_, _, h⟩
      · obtain ⟨r, h1, h2⟩ := ih.finds rfl j id own hj hd
        refine ⟨r, (versionsGms_push m j).trans ?_, h2⟩
        rw [h1, Option.map_some, ih.copied rfl j id own hj hd r h1]
        rfl
      · cases h
    · intro _ i id own h hd r hr
      rcases h with ⟨j, hj, rfl⟩ | ⟨_, _, h⟩
      · obtain ⟨r', hr', rfl⟩ := Option.map_eq_some_iff.mp ((versionsGms_push m j).symm.trans hr)
        rw [ih.copied rfl j id own hj hd r' hr']
        simp [ih.copied rfl j id own hj hd r' hr']
      · cases h
  | versionsShared direct copies m _ ih =>
    refine ⟨?_, ?_, (fun h => by cases h), (fun h => by cases h)⟩
    · intro i id own h
      rcases h with ⟨j, hj, rfl⟩ | ⟨_, _, h⟩
      · exact ih.mode j id own hj
      · cases h
    · intro i id own h hd
      rcases h with ⟨j, hj, rfl⟩ | ⟨_, _, h⟩
      · obtain ⟨h1, h2⟩ := ih.opens j id own hj hd
        show (versionsOpen m _).reached = _ ∧ (versionsOpen m _).after = _
        rw [versionsOpen_push]
        refine ⟨h1, ?_⟩
        show (m.open_ j).after.push .file = _
        rw [h2]
      · cases h
  | removePrefix direct copies d m hdir _ ih =>
    have hne : ∀ i id own, m.gives i (some (id, own)) → isDir own.mode = false → i ≠ d := by
      rintro i id own h hd rfl
      rw [← ih.mode i id own h, hdir] at hd
      cases hd
    refine ⟨?_, ?_, ?_, ?_⟩
    · intro i id own h
      rcases h with h | ⟨_, h⟩
      · exact ih.mode i id own h
      · cases h
    · intro i id own h hd
      rcases h with h | ⟨_, h⟩
      · show (prefixOpen d m i).reached = _ ∧ (prefixOpen d m i).after = _
        unfold prefixOpen
        rw [if_neg (hne i id own h hd)]
        exact ih.opens i id own h hd
      · cases h
    · intro hdirect i id own h hd
      rcases h with h | ⟨_, h⟩
      · obtain ⟨r, h1, h2⟩ := ih.finds hdirect i id own h hd
        exact ⟨r, (if_neg (hne i id own h hd)).trans h1, h2⟩
      · cases h
    · intro hc i id own h hd r hr
      rcases h with h | ⟨_, h⟩
      · exact ih.copied hc i id own h hd r ((if_neg (hne i id own h hd)).symm.trans hr)
      · cases h
  | subvolumes direct mounts _ ih =>
    refine ⟨?_, ?_, ?_, ?_⟩
    · intro i id own h
      rcases h with ⟨cid, c, j, hc, hj, rfl⟩ | ⟨_, h⟩
      · exact (ih cid c hc).mode j id own hj
      · cases h
    · intro i id own h hd
      rcases h with ⟨cid, c, j, hc, hj, rfl⟩ | ⟨_, h⟩
      · obtain ⟨h1, h2⟩ := (ih cid c hc).opens j id own hj hd
        show (subvolumesOpen mounts _).reached = _ ∧ (subvolumesOpen mounts _).after = _
        rw [subvolumesOpen_push mounts cid c j hc]
        refine ⟨h1, ?_⟩
        show (c.open_ j).after.push (.str cid) = _
        rw [h2]
      · cases h
    · intro hdir i id own h hd
      rcases h with ⟨cid, c, j, hc, hj, rfl⟩ | ⟨_, h⟩
      · obtain ⟨r, h1, h2⟩ := (ih cid c hc).finds hdir j id own hj hd
        exact ⟨{ r with shared := false }, (subvolumesGms_push mounts cid c j hc).trans (by rw [h1]; rfl), h2⟩
      · cases h
    · intro _ i id own h hd r hr
      rcases h with ⟨cid, c, j, hc, hj, rfl⟩ | ⟨_, h⟩
      · obtain ⟨r', _, rfl⟩ := Option.map_eq_some_iff.mp ((subvolumesGms_push mounts cid c j hc).symm.trans hr)
        rfl
      · cases h
  | auto mounted _ ih =>
    have hfinds : ∀ i id own, (MS.auto mounted).gives i (some (id, own)) → isDir own.mode = false →
        ∃ r, autoGms mounted i = some r ∧ (r.target r.info).reached = some (id, own) := by
      intro i id own h hd
      rcases h with ⟨cid, c, j, hc, hj, rfl⟩ | ⟨_, _, _, h⟩
      · obtain ⟨r, h1, h2⟩ := (ih cid c hc).finds rfl j id own hj hd
        exact ⟨{ r with shared := false }, (autoGms_push mounted cid c j hc).trans (by rw [h1]; rfl), h2⟩
      · cases h
    refine ⟨?_, ?_, fun _ => hfinds, ?_⟩
    · intro i id own h
      rcases h with ⟨cid, c, j, hc, hj, rfl⟩ | ⟨_, _, _, h⟩
      · exact (ih cid c hc).mode j id own hj
      · cases h
    · intro i id own h hd
      obtain ⟨r, h1, h2⟩ := hfinds i id own h hd
      show (autoOpen mounted i).reached = _ ∧ (autoOpen mounted i).after = _
      unfold autoOpen
      rw [h1]
      exact ⟨h2, rfl⟩
    · intro _ i id own h hd r hr
      rcases h with ⟨cid, c, j, hc, hj, rfl⟩ | ⟨_, _, _, h⟩
      · obtain ⟨r', _, rfl⟩ := Option.map_eq_some_iff.mp ((autoGms_push mounted cid c j hc).symm.trans hr)
        rfl
      · cases h
  | weaken direct copies m _ ih => exact ⟨ih.mode, ih.opens, ih.finds, fun h => by cases h⟩

/-- **C32** for files: through every sound stack of layers, of any depth, opening with metadata that a lookup returned reaches
the source it stems from with that source's own metadata, and the caller's object is the same afterwards. Missing
from the full claim: auto-mount layers directly above version layers, and folders. -/
theorem C32_files_partial (direct copies : Bool) (m : MS) (h : Sound direct copies m) (i : FileInfo) (id : Nat) (own : FileInfo)
    (hg : m.gives i (some (id, own))) (hd : isDir own.mode = false) :
    (m.open_ i).reached = some (id, own) ∧ (m.open_ i).after = i := (sound direct copies m h).opens i id own hg hd

/-- **C32 is violated by the code** for folders of sub-volume mounts: opening one removes an entry of `userdata`. -/
theorem C32_violated : ¬ C32_statement := by
  intro h
  have := (h (.subvolumes []) (.subvolumes [] (by intro n m hm; cases hm)) (rootInfo [.none]) none (.inr ⟨rfl, rfl⟩)).1
  exact absurd this (by decide)

/-- The full claim about files alone. -/
def C32_files_statement : Prop :=
  ∀ (m : MS), Stacked m → ∀ i id own, m.gives i (some (id, own)) → isDir own.mode = false → (m.open_ i).reached = some (id, own)

/-- **C32 is violated by the code** for files, too: an auto-mount layer above a version layer above a plain source passes on
metadata that still contains the tag of the version layer. -/
theorem C32_files_violated : ¬ C32_files_statement := by
  intro h
  have hs : Stacked (.auto [(['/'], .versions (.base 0 (fun _ => .ok 0)))]) := by
    refine .auto _ ?_
    intro mp m hm
    simp only [Dict.get?] at hm
    split at hm
    · cases hm; exact .versions _ (.base _ _)
    · cases hm
  have := h _ hs ⟨0o100644, [], 0, [.str ['/'], .file, .own 7]⟩ 0 ⟨0o100644, [], 0, [.own 7]⟩
    (.inl ⟨['/'], _, ⟨0o100644, [], 0, [.file, .own 7]⟩, rfl, .inl ⟨_, rfl, rfl⟩, rfl⟩) (by decide)
  exact absurd this (by decide +kernel)

/-- A case of `C32_files_partial`: the stack that the mount command builds: versions over auto-mounted archives over
sub-volumes. -/
def demoStack : MS := .versions (.auto [(['/'], .subvolumes [(['a'], .base 0 (fun _ => .error .valueError))])])

example : Sound true true demoStack ∧
    demoStack.gives ⟨0o100644, [], 0, [.file, .str ['/'], .str ['a'], .own 3]⟩ (some (0, ⟨0o100644, [], 0, [.own 3]⟩)) := by
  refine ⟨.versions _ (.auto _ ?_), .inl ⟨_, .inl ⟨['/'], _, _, rfl, .inl ⟨['a'], _, _, rfl, rfl, rfl⟩, rfl⟩, rfl⟩⟩
  intro mp m hm
  simp only [Dict.get?] at hm
  split at hm
  · cases hm
    refine .weaken _ true _ (.subvolumes _ _ ?_)
    intro n c hc
    simp only [Dict.get?] at hc
    split at hc
    · cases hc; exact .base _ _
    · cases hc
  · cases hm

end Verif.Compose
