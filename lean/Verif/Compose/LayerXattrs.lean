import Verif.Compose.Layers
import Verif.Bytes

/-!
# C177: extended attributes through stacks of layers and the mount

`list_xattr` and `get_xattr` are written alike in every layer, so a question is asked: the names, or the value of one name.
Layers pop what they pushed onto the caller's `userdata`, ask the source below, and push it back. What the innermost
sources answer is given by an environment (see C20 for indexes).
-/

namespace Verif.Compose.Attrs

open Verif.Py Verif.Index Verif.Compose Verif.Bin

/-- `list_xattr(fileInfo)` is asked with nothing, `get_xattr(fileInfo, key)` with the key (MountSource.py:119-130). -/
abbrev Query := Option Str

/-- What is returned: names, or a value or `None` (MountSource.py:119-130). -/
inductive Answer where
  | keys (l : List Str)
  | value (v : Option Data)
  deriving DecidableEq, Repr

/-- `[]` and `None`, as the default implementations return (MountSource.py:119-130). -/
def nothing : Query → Answer
  | none => .keys []
  | some _ => .value none

/-- What happened: the result, and the caller's object afterwards (MountSource.py:119-130). -/
structure Asked where
  result : Except PyErr Answer
  after : FileInfo

/-- The result of `get_mount_source`: how the returned source is asked, the returned metadata, and whether the latter is the
caller's own object (MountSource.py:104-109). -/
structure Ref where
  target : FileInfo → Query → Asked
  info : FileInfo
  shared : Bool

/-- A mount source as far as C177 is concerned (MountSource.py:38-139). `gives i o` says that `lookup` can return `i`, and that it
stems from the source and metadata `o`, or that a layer made it up. -/
structure XS where
  gives : FileInfo → Option (Nat × FileInfo) → Prop
  ask : FileInfo → Query → Asked
  gms : FileInfo → Option Ref

/-- What the innermost sources answer (SQLiteIndex.py:976-1016, folder.py:178-186, MountSource.py:119-130). -/
abbrev Env := Nat → FileInfo → Query → Except PyErr Answer

/-- A source that is no layer (MountSource.py:104-130). -/
def baseAsk (env : Env) (id : Nat) (i : FileInfo) (q : Query) : Asked := ⟨env id i q, i⟩

/-- Metadata that a source returns: those that have attributes store something in `userdata` (SQLiteIndex.py:885-911,
folder.py:88-101); others may not (singlefile.py:30-40). -/
def Own (env : Env) (id : Nat) (i : FileInfo) : Prop := i.userdata ≠ [] ∨ ∀ q, env id i q = .ok (nothing q)

/-- A source that is no layer (MountSource.py:104-130). -/
def XS.base (env : Env) (id : Nat) : XS where
  gives i o := o = some (id, i) ∧ Own env id i
  ask := baseAsk env id
  gms i := some ⟨baseAsk env id, i, true⟩

/-- The `finally` clauses (union.py:216-217, versioning.py:272-273, subvolumes.py:198-199). -/
def Asked.append (a : Asked) (t : Tag) : Asked := { a with after := a.after.push t }

/-- `fileInfo.userdata.pop()` of an empty list, before the `try` (union.py:213, versioning.py:267, subvolumes.py:195). -/
def popEmpty (i : FileInfo) : Asked := ⟨.error .indexError, i⟩

/-- A layer answers itself, after having popped (union.py:215, versioning.py:270, subvolumes.py:197). -/
def itself (i : FileInfo) (q : Query) : Asked := ⟨.ok (nothing q), popped i⟩

/-- A layer raises, after having popped (subvolumes.py:197). -/
def raised (e : PyErr) (i : FileInfo) : Asked := ⟨.error e, popped i⟩

/-- UnionMountSource.list_xattr, get_xattr (union.py:211-225). -/
def unionAsk (child : Nat → Option XS) (i : FileInfo) (q : Query) : Asked :=
  match i.userdata with
  | [] => popEmpty i
  | .source id :: _ =>
    match child id with
    | some c => (c.ask (popped i) q).append (.source id)
    | none => (itself i q).append (.source id)
  | t :: _ => (itself i q).append t

/-- The result of `get_mount_source` when a copy was passed on (union.py:220-221, subvolumes.py:211-212, automount.py:405-406). -/
def Ref.copy (r : Ref) : Ref := { r with shared := false }

/-- UnionMountSource.get_mount_source (union.py:227-238). -/
def unionGms (child : Nat → Option XS) (i : FileInfo) : Option Ref :=
  match i.userdata with
  | [] => none
  | .source id :: _ =>
    match child id with
    | some c => (c.gms (popped i)).map Ref.copy
    | none => some ⟨unionAsk child, i, true⟩
  | _ :: _ => some ⟨unionAsk child, i, true⟩

/-- UnionMountSource (union.py:105-146, 211-238). -/
def XS.union (child : Nat → Option XS) : XS where
  gives i o := (∃ id c j, child id = some c ∧ c.gives j o ∧ i = j.push (.source id)) ∨ (i = rootInfo [.none] ∧ o = none)
  ask := unionAsk child
  gms := unionGms child

/-- FileVersionLayer.list_xattr, get_xattr (versioning.py:265-283). -/
def versionsAsk (m : XS) (i : FileInfo) (q : Query) : Asked :=
  match i.userdata with
  | [] => popEmpty i
  | .versionsFolder :: _ => (itself i q).append .versionsFolder
  | t :: _ => (m.ask (popped i) q).append t

/-- The tag that the `finally` clause pushes back is pushed onto the returned object if that is the caller's
(versioning.py:256-263). -/
def Ref.pushed (t : Tag) (r : Ref) : Ref := if r.shared then { r with info := r.info.push t } else r

/-- FileVersionLayer.get_mount_source (versioning.py:256-263). -/
def versionsGms (m : XS) (i : FileInfo) : Option Ref :=
  match i.userdata with
  | [] => none
  | .versionsFolder :: _ => some ⟨versionsAsk m, i, true⟩
  | t :: _ => (m.gms (popped i)).map (Ref.pushed t)

/-- FileVersionLayer (versioning.py:191-283). -/
def XS.versions (m : XS) : XS where
  gives i o := (∃ j, m.gives j o ∧ i = j.push .file) ∨ (i.userdata = [.versionsFolder] ∧ o = none)
  ask := versionsAsk m
  gms := versionsGms m

/-- RemovePrefixMountSource.list_xattr, get_xattr (removeprefix.py:82-92); `d` is `self._directory_info`. -/
def prefixAsk (d : FileInfo) (m : XS) (i : FileInfo) (q : Query) : Asked := if i = d then ⟨.ok (nothing q), i⟩ else m.ask i q

/-- RemovePrefixMountSource.get_mount_source (removeprefix.py:76-80). -/
def prefixGms (d : FileInfo) (m : XS) (i : FileInfo) : Option Ref := if i = d then some ⟨prefixAsk d m, i, true⟩ else m.gms i

/-- RemovePrefixMountSource (removeprefix.py:46-92). -/
def XS.removePrefix (d : FileInfo) (m : XS) : XS where
  gives i o := m.gives i o ∨ (i = d ∧ o = none)
  ask := prefixAsk d m
  gms := prefixGms d m

/-- SubvolumesMountSource.list_xattr, get_xattr (subvolumes.py:193-207). -/
def subvolumesAsk (mounts : Dict Str XS) (i : FileInfo) (q : Query) : Asked :=
  match i.userdata with
  | [] => popEmpty i
  | .none :: _ => (itself i q).append .none
  | .str name :: _ =>
    match mounts.get? name with
    | some m => (m.ask (popped i) q).append (.str name)
    | none => (raised .keyError i).append (.str name)
  | t :: _ => (raised .keyError i).append t

/-- SubvolumesMountSource.get_mount_source (subvolumes.py:209-219). -/
def subvolumesGms (mounts : Dict Str XS) (i : FileInfo) : Option Ref :=
  match i.userdata with
  | [] => none
  | .str name :: _ =>
    match mounts.get? name with
    | some m => (m.gms (popped i)).map Ref.copy
    | none => some ⟨subvolumesAsk mounts, i, true⟩
  | _ :: _ => some ⟨subvolumesAsk mounts, i, true⟩

/-- SubvolumesMountSource (subvolumes.py:127-140, 193-219) with mount points in the root. See C39 for deeper ones. -/
def XS.subvolumes (mounts : Dict Str XS) : XS where
  gives i o := (∃ name m j, mounts.get? name = some m ∧ m.gives j o ∧ i = j.push (.str name)) ∨ (i = rootInfo [.none] ∧ o = none)
  ask := subvolumesAsk mounts
  gms := subvolumesGms mounts

/-- AutoMountLayer.MountInfo: the mounted source and its `rootFileInfo` (automount.py:28-33). -/
abbrev Mounts := Dict Str (XS × FileInfo)

/-- AutoMountLayer.get_mount_source (automount.py:399-409). -/
def autoGms (mounted : Mounts) (i : FileInfo) : Option Ref :=
  match i.userdata with
  | .str mp :: _ =>
    match mounted.get? mp with
    | some (m, _) => (m.gms (popped i)).map Ref.copy
    | none => none
  | _ => none

/-- The call of what `get_mount_source` returned (automount.py:386-387, 396-397). The caller's object is not passed on. -/
def viaRef (i : FileInfo) (q : Query) : Option Ref → Asked
  | some r => { r.target r.info q with after := i }
  | none => ⟨.error .indexError, i⟩

/-- AutoMountLayer.list_xattr, get_xattr (automount.py:379-397). -/
def autoAsk (mounted : Mounts) (i : FileInfo) (q : Query) : Asked :=
  match i.userdata with
  | [] => ⟨.error .indexError, i⟩
  | .str mp :: _ =>
    match mounted.get? mp with
    | some (_, root) => if i = root then ⟨.ok (nothing q), i⟩ else viaRef i q (autoGms mounted i)
    | none => ⟨.error .keyError, i⟩
  | _ :: _ => ⟨.error .assertionError, i⟩

/-- AutoMountLayer (automount.py:272-310, 379-409). The folders of nested archives are made up (230-233). -/
def XS.auto (mounted : Mounts) : XS where
  gives i o := (∃ mp m root j, mounted.get? mp = some (m, root) ∧ m.gives j o ∧ i = j.push (.str mp)) ∨
    (∃ mp m, mounted.get? mp = some (m, i) ∧ i.userdata = [.str mp] ∧ o = none)
  ask := autoAsk mounted
  gms := autoGms mounted

/-- FuseMount.listxattr after the lookup (FuseMount.py:914-919). -/
def listxattr (m : XS) (i : FileInfo) : Except PyErr Answer := (m.ask i none).result

/-- `raise fuse.FuseOSError(errno.ENODATA)` (FuseMount.py:930-935). -/
def orNoData : Except PyErr Answer → Except PyErr Answer
  | .ok (.value none) => .error (.os 61)
  | r => r

/-- FuseMount.getxattr after the lookup (FuseMount.py:921-935). EOPNOTSUPP is 95. -/
def getxattr (m : XS) (i : FileInfo) (key : Str) (position : Nat) : Except PyErr Answer :=
  if position ≠ 0 then .error (.os 95) else orNoData (m.ask i (some key)).result

/-! ## C177 -/

/-- What should be answered: what the source that the metadata stems from says about its own metadata, and nothing for what
layers made up. -/
def expected (env : Env) : Option (Nat × FileInfo) → Query → Except PyErr Answer
  | some (id, own), q => env id own q
  | none, q => .ok (nothing q)

/-- All stacks. -/
inductive Stacked (env : Env) : XS → Prop where
  | base (id : Nat) : Stacked env (.base env id)
  | union (child : Nat → Option XS) : (∀ id c, child id = some c → Stacked env c) → Stacked env (.union child)
  | versions (m : XS) : Stacked env m → Stacked env (.versions m)
  | removePrefix (d : FileInfo) (m : XS) : d.userdata = [] → Stacked env m → Stacked env (.removePrefix d m)
  | subvolumes (mounts : Dict Str XS) : (∀ name m, mounts.get? name = some m → Stacked env m) → Stacked env (.subvolumes mounts)
  | auto (mounted : Mounts) : (∀ mp m root, mounted.get? mp = some (m, root) → Stacked env m) → Stacked env (.auto mounted)

/-- The full statement of C177: through every stack of layers, asking with metadata that a lookup returned gives what the source it stems
from says, nothing for what layers made up, and leaves the caller's object as it was. -/
def C177_statement : Prop :=
  ∀ (env : Env) (m : XS), Stacked env m → ∀ i o, m.gives i o → ∀ q,
    (m.ask i q).result = expected env o q ∧ (m.ask i q).after = i

theorem unionAsk_push (child : Nat → Option XS) (id : Nat) (c : XS) (j : FileInfo) (q : Query) (h : child id = some c) :
    unionAsk child (j.push (.source id)) q = (c.ask j q).append (.source id) := by
  simp only [unionAsk, FileInfo.push, h]
  rfl

theorem unionGms_push (child : Nat → Option XS) (id : Nat) (c : XS) (j : FileInfo) (h : child id = some c) :
    unionGms child (j.push (.source id)) = (c.gms j).map Ref.copy := by
  simp only [unionGms, FileInfo.push, h]
  rfl

theorem subvolumesAsk_push (mounts : Dict Str XS) (name : Str) (c : XS) (j : FileInfo) (q : Query) (h : mounts.get? name = some c) :
    subvolumesAsk mounts (j.push (.str name)) q = (c.ask j q).append (.str name) := by
  simp only [subvolumesAsk, FileInfo.push, h]
  rfl

theorem subvolumesGms_push (mounts : Dict Str XS) (name : Str) (c : XS) (j : FileInfo) (h : mounts.get? name = some c) :
    subvolumesGms mounts (j.push (.str name)) = (c.gms j).map Ref.copy := by
  simp only [subvolumesGms, FileInfo.push, h]
  rfl

theorem autoGms_push (mounted : Mounts) (mp : Str) (c : XS) (root j : FileInfo) (h : mounted.get? mp = some (c, root)) :
    autoGms mounted (j.push (.str mp)) = (c.gms j).map Ref.copy := by
  simp only [autoGms, FileInfo.push, h]
  rfl

theorem autoAsk_push (mounted : Mounts) (mp : Str) (c : XS) (root j : FileInfo) (q : Query) (h : mounted.get? mp = some (c, root))
    (hr : j.push (.str mp) ≠ root) : autoAsk mounted (j.push (.str mp)) q = viaRef (j.push (.str mp)) q ((c.gms j).map Ref.copy) := by
  rw [← autoGms_push mounted mp c root j h]
  show (match mounted.get? mp with
    | some (_, root) => if j.push (.str mp) = root then (⟨.ok (nothing q), j.push (.str mp)⟩ : Asked) else viaRef (j.push (.str mp)) q (autoGms mounted (j.push (.str mp)))
    | none => ⟨.error .keyError, j.push (.str mp)⟩) = _
  rw [h]
  exact if_neg hr

theorem autoAsk_root (mounted : Mounts) (mp : Str) (c : XS) (root : FileInfo) (rest : List Tag) (q : Query)
    (h : mounted.get? mp = some (c, root)) (hu : root.userdata = .str mp :: rest) : autoAsk mounted root q = ⟨.ok (nothing q), root⟩ := by
  unfold autoAsk
  rw [hu]
  show (match mounted.get? mp with
    | some (_, r) => if root = r then (⟨.ok (nothing q), root⟩ : Asked) else viaRef root q (autoGms mounted root)
    | none => ⟨.error .keyError, root⟩) = _
  rw [h]
  exact if_pos rfl

theorem versionsGms_push (m : XS) (j : FileInfo) : versionsGms m (j.push .file) = (m.gms j).map (Ref.pushed .file) := rfl

theorem versionsAsk_push (m : XS) (j : FileInfo) (q : Query) : versionsAsk m (j.push .file) q = (m.ask j q).append .file := rfl

theorem append_after (a : Asked) (t : Tag) (i : FileInfo) (h : a.after = i) : (a.append t).after = i.push t := by rw [← h]; rfl

/-- **C177**, the caller's object: through every stack of layers it is the same after asking, for arbitrary objects, and
whether an exception is raised or not. -/
theorem C177_restored (env : Env) (m : XS) (h : Stacked env m) : ∀ i q, (m.ask i q).after = i := by
  induction h with
  | base id => intro i q; rfl
  | union child _ ih =>
    intro i q
    show (unionAsk child i q).after = i
    unfold unionAsk
    split
    · rfl
    · next id rest hu =>
      cases hc : child id with
      | none => exact push_popped i _ rest hu
      | some c => exact (append_after _ _ _ (ih id c hc _ q)).trans (push_popped i _ rest hu)
    · next t rest _ hu => exact push_popped i _ rest hu
  | versions m _ ih =>
    intro i q
    show (versionsAsk m i q).after = i
    unfold versionsAsk
    split
    · rfl
    · next rest hu => exact push_popped i _ rest hu
    · next t rest _ hu => exact (append_after _ _ _ (ih _ q)).trans (push_popped i _ rest hu)
  | removePrefix d m _ _ ih =>
    intro i q
    show (prefixAsk d m i q).after = i
    unfold prefixAsk
    split
    · rfl
    · exact ih i q
  | subvolumes mounts _ ih =>
    intro i q
    show (subvolumesAsk mounts i q).after = i
    unfold subvolumesAsk
    split
    · rfl
    · next rest hu => exact push_popped i _ rest hu
    · next name rest hu =>
      cases hc : mounts.get? name with
      | none => exact push_popped i _ rest hu
      | some c => exact (append_after _ _ _ (ih name c hc _ q)).trans (push_popped i _ rest hu)
    · next t rest _ _ hu => exact push_popped i _ rest hu
  | auto mounted _ _ =>
    intro i q
    show (autoAsk mounted i q).after = i
    unfold autoAsk
    split
    · rfl
    · split
      · split
        · rfl
        · unfold viaRef
          split <;> rfl
      · rfl
    · rfl

/-- An auto-mount layer whose root folders have no attributes of their own. -/
def RootsPlain (env : Env) (mounted : Mounts) : Prop :=
  ∀ mp m root j o, mounted.get? mp = some (m, root) → m.gives j o → j.push (.str mp) = root → ∀ q, expected env o q = .ok (nothing q)

/-- Nested archives are opened from file objects, and so are no layers; archives say nothing about metadata without `userdata`
(SQLiteIndex.py:977-978, 1000-1001). -/
def NestedPlain (env : Env) (mounted : Mounts) : Prop :=
  ∀ mp m root, mounted.get? mp = some (m, root) → root.userdata = [.str mp] →
    ∃ id, m = .base env id ∧ ∀ i q, i.userdata = [] → env id i q = .ok (nothing q)

/-- Stacks with two properties: `direct`, `get_mount_source` finds the source and its metadata; `copies`, it does so in a way that what a
version layer pushes afterwards does no harm. Missing are auto-mount layers above version layers whose source does not copy, and
attributes of root folders below auto-mount layers. -/
inductive Sound (env : Env) : Bool → Bool → XS → Prop where
  | base (id : Nat) : Sound env true false (.base env id)
  | union (direct : Bool) (child : Nat → Option XS) : (∀ id c, child id = some c → Sound env direct false c) →
      Sound env direct true (.union child)
  | versions (m : XS) : Sound env true true m → Sound env true false (.versions m)
  | versionsShared (direct copies : Bool) (m : XS) : Sound env direct copies m → Sound env false false (.versions m)
  | removePrefix (direct copies : Bool) (d : FileInfo) (m : XS) : d.userdata = [] → Sound env direct copies m →
      Sound env direct false (.removePrefix d m)
  | subvolumes (direct : Bool) (mounts : Dict Str XS) : (∀ name m, mounts.get? name = some m → Sound env direct false m) →
      Sound env direct false (.subvolumes mounts)
  | auto (mounted : Mounts) : (∀ mp m root, mounted.get? mp = some (m, root) → Sound env true false m) → RootsPlain env mounted → NestedPlain env mounted →
      Sound env true true (.auto mounted)
  | weaken (direct copies : Bool) (m : XS) : Sound env direct copies m → Sound env direct false m

/-- A reference through which the right answers are given. -/
def Leads (env : Env) (o : Option (Nat × FileInfo)) (r : Ref) : Prop := ∀ q, (r.target r.info q).result = expected env o q

/-- What is shown by induction. -/
structure SoundAt (env : Env) (direct copies : Bool) (m : XS) : Prop where
  stacked : Stacked env m
  plain : ∀ i o, m.gives i o → i.userdata = [] → ∀ q, expected env o q = .ok (nothing q)
  asks : ∀ i o, m.gives i o → ∀ q, (m.ask i q).result = expected env o q
  finds : direct = true → ∀ i o, m.gives i o → ∃ r, m.gms i = some r ∧ Leads env o r
  copied : direct = true → copies = true → ∀ i o, m.gives i o → ∀ r, m.gms i = some r → Leads env o (r.pushed .file)

theorem leads_copy {env : Env} {o : Option (Nat × FileInfo)} {r : Ref} (h : Leads env o r) : Leads env o r.copy := h

theorem leads_copy_pushed {env : Env} {o : Option (Nat × FileInfo)} {r : Ref} (t : Tag) (h : Leads env o r) : Leads env o (r.copy.pushed t) := h

theorem map_copy {g : Option Ref} {r : Ref} (h : g = some r) : g.map Ref.copy = some r.copy := by rw [h]; rfl

theorem sound (env : Env) (direct copies : Bool) (m : XS) (h : Sound env direct copies m) : SoundAt env direct copies m := by
  induction h with
  | base id =>
    refine ⟨.base id, ?_, ?_, ?_, (fun _ h => by cases h)⟩
    · rintro i o ⟨rfl, h⟩ hu q
      rcases h with h | h
      · exact absurd hu h
      · exact h q
    · rintro i o ⟨rfl, _⟩ q; rfl
    · rintro _ i o ⟨rfl, _⟩; exact ⟨_, rfl, fun q => rfl⟩
  | union direct child _ ih =>
    refine ⟨.union child (fun id c hc => (ih id c hc).stacked), ?_, ?_, ?_, ?_⟩
    · intro i o h hu
      rcases h with ⟨cid, c, j, hc, hj, rfl⟩ | ⟨rfl, h⟩ <;> cases hu
    · intro i o h q
      rcases h with ⟨cid, c, j, hc, hj, rfl⟩ | ⟨rfl, rfl⟩
      · show (unionAsk child _ q).result = _
        rw [unionAsk_push child cid c j q hc]
        exact (ih cid c hc).asks j o hj q
      · rfl
    · intro hd i o h
      rcases h with ⟨cid, c, j, hc, hj, rfl⟩ | ⟨rfl, rfl⟩
      · obtain ⟨r, h1, h2⟩ := (ih cid c hc).finds hd j o hj
        exact ⟨r.copy, (unionGms_push child cid c j hc).trans (map_copy h1), leads_copy h2⟩
      · exact ⟨_, rfl, fun q => rfl⟩
    · intro hd _ i o h r hr
      rcases h with ⟨cid, c, j, hc, hj, rfl⟩ | ⟨rfl, rfl⟩
      · obtain ⟨r', h1, h2⟩ := (ih cid c hc).finds hd j o hj
        have := hr.symm.trans ((unionGms_push child cid c j hc).trans (map_copy h1))
        cases this
        exact leads_copy_pushed _ h2
      · cases hr
        intro q
        rfl
  | versions m _ ih =>
    refine ⟨.versions m ih.stacked, ?_, ?_, ?_, (fun _ h => by cases h)⟩
    · intro i o h hu
      rcases h with ⟨j, hj, rfl⟩ | ⟨h, _⟩
      · cases hu
      · rw [h] at hu; cases hu
    · intro i o h q
      rcases h with ⟨j, hj, rfl⟩ | ⟨h, rfl⟩
      · exact ih.asks j o hj q
      · show (versionsAsk m i q).result = _
        unfold versionsAsk
        rw [h]
        rfl
    · intro _ i o h
      rcases h with ⟨j, hj, rfl⟩ | ⟨h, rfl⟩
      · obtain ⟨r, h1, h2⟩ := ih.finds rfl j o hj
        exact ⟨r.pushed .file, (versionsGms_push m j).trans (by rw [h1]; rfl), ih.copied rfl rfl j o hj r h1⟩
      · refine ⟨⟨versionsAsk m, i, true⟩, ?_, ?_⟩
        · show versionsGms m i = _
          unfold versionsGms
          rw [h]
        · intro q
          show (versionsAsk m i q).result = _
          unfold versionsAsk
          rw [h]
          rfl
  | versionsShared direct copies m _ ih =>
    refine ⟨.versions m ih.stacked, ?_, ?_, (fun h => by cases h), (fun h => by cases h)⟩
    · intro i o h hu
      rcases h with ⟨j, hj, rfl⟩ | ⟨h, _⟩
      · cases hu
      · rw [h] at hu; cases hu
    · intro i o h q
      rcases h with ⟨j, hj, rfl⟩ | ⟨h, rfl⟩
      · exact ih.asks j o hj q
      · show (versionsAsk m i q).result = _
        unfold versionsAsk
        rw [h]
        rfl
  | removePrefix direct copies d m hd _ ih =>
    have hpl : ∀ i o, (XS.removePrefix d m).gives i o → i.userdata = [] → ∀ q, expected env o q = .ok (nothing q) := by
      intro i o h hu q
      rcases h with h | ⟨rfl, rfl⟩
      · exact ih.plain i o h hu q
      · rfl
    refine ⟨.removePrefix d m hd ih.stacked, hpl, ?_, ?_, (fun _ h => by cases h)⟩
    · intro i o h q
      show (prefixAsk d m i q).result = _
      unfold prefixAsk
      by_cases hi : i = d
      · rw [if_pos hi, hpl i o h (by rw [hi]; exact hd) q]
      · rw [if_neg hi]
        rcases h with h | ⟨h, _⟩
        · exact ih.asks i o h q
        · exact absurd h hi
    · intro hdir i o h
      by_cases hi : i = d
      · refine ⟨⟨prefixAsk d m, i, true⟩, if_pos hi, ?_⟩
        intro q
        show (prefixAsk d m i q).result = _
        unfold prefixAsk
        rw [if_pos hi, hpl i o h (by rw [hi]; exact hd) q]
      · rcases h with h | ⟨h, _⟩
        · obtain ⟨r, h1, h2⟩ := ih.finds hdir i o h
          exact ⟨r, (if_neg hi).trans h1, h2⟩
        · exact absurd h hi
  | subvolumes direct mounts _ ih =>
    refine ⟨.subvolumes mounts (fun id c hc => (ih id c hc).stacked), ?_, ?_, ?_, (fun _ h => by cases h)⟩
    · intro i o h hu
      rcases h with ⟨cid, c, j, hc, hj, rfl⟩ | ⟨rfl, h⟩ <;> cases hu
    · intro i o h q
      rcases h with ⟨cid, c, j, hc, hj, rfl⟩ | ⟨rfl, rfl⟩
      · show (subvolumesAsk mounts _ q).result = _
        rw [subvolumesAsk_push mounts cid c j q hc]
        exact (ih cid c hc).asks j o hj q
      · rfl
    · intro hd i o h
      rcases h with ⟨cid, c, j, hc, hj, rfl⟩ | ⟨rfl, rfl⟩
      · obtain ⟨r, h1, h2⟩ := (ih cid c hc).finds hd j o hj
        exact ⟨r.copy, (subvolumesGms_push mounts cid c j hc).trans (map_copy h1), leads_copy h2⟩
      · exact ⟨_, rfl, fun q => rfl⟩
  | auto mounted _ hroots hnested ih =>
    have hfinds : ∀ mp m root j o, mounted.get? mp = some (m, root) → m.gives j o →
        ∃ r, autoGms mounted (j.push (.str mp)) = some r.copy ∧ m.gms j = some r ∧ Leads env o r.copy := by
      intro mp m root j o hm hj
      obtain ⟨r, h1, h2⟩ := (ih mp m root hm).finds rfl j o hj
      exact ⟨r, (autoGms_push mounted mp m root j hm).trans (map_copy h1), h1, leads_copy h2⟩
    have hmade : ∀ mp m i, mounted.get? mp = some (m, i) → i.userdata = [.str mp] →
        ∃ r : Ref, autoGms mounted i = some r.copy ∧ Leads env none r.copy := by
      intro mp m i hm hu
      obtain ⟨id, rfl, hid⟩ := hnested mp m i hm hu
      refine ⟨⟨baseAsk env id, popped i, true⟩, ?_, ?_⟩
      · unfold autoGms
        rw [hu]
        show (match mounted.get? mp with
          | some (m, _) => (m.gms (popped i)).map Ref.copy
          | none => none) = _
        rw [hm]
        rfl
      · intro q
        exact hid (popped i) q (by unfold popped; rw [hu]; rfl)
    refine ⟨.auto mounted (fun mp m root hm => (ih mp m root hm).stacked), ?_, ?_, ?_, ?_⟩
    · intro i o h hu
      rcases h with ⟨mp, m, root, j, hm, hj, rfl⟩ | ⟨mp, m, hm, h, _⟩
      · cases hu
      · rw [h] at hu; cases hu
    · intro i o h q
      show (autoAsk mounted i q).result = _
      rcases h with ⟨mp, m, root, j, hm, hj, rfl⟩ | ⟨mp, m, hm, h, rfl⟩
      · by_cases hr : j.push (.str mp) = root
        · subst hr
          rw [autoAsk_root mounted mp m _ j.userdata q hm rfl]
          exact (hroots mp m _ j o hm hj rfl q).symm
        · rw [autoAsk_push mounted mp m root j q hm hr]
          obtain ⟨r, _, h2, h3⟩ := hfinds mp m root j o hm hj
          rw [h2]
          exact h3 q
      · rw [autoAsk_root mounted mp m i [] q hm h]
        rfl
    · intro _ i o h
      rcases h with ⟨mp, m, root, j, hm, hj, rfl⟩ | ⟨mp, m, hm, h, rfl⟩
      · obtain ⟨r, h1, _, h3⟩ := hfinds mp m root j o hm hj
        exact ⟨_, h1, h3⟩
      · obtain ⟨r, h1, h3⟩ := hmade mp m i hm h
        exact ⟨_, h1, h3⟩
    · intro _ _ i o h r hr
      rcases h with ⟨mp, m, root, j, hm, hj, rfl⟩ | ⟨mp, m, hm, h, rfl⟩
      · obtain ⟨r', h1, _, h3⟩ := hfinds mp m root j o hm hj
        have := hr.symm.trans h1
        cases this
        exact leads_copy_pushed _ h3
      · obtain ⟨r', h1, h3⟩ := hmade mp m i hm h
        have := hr.symm.trans h1
        cases this
        exact leads_copy_pushed _ h3
  | weaken direct copies m _ ih => exact ⟨ih.stacked, ih.plain, ih.asks, ih.finds, fun _ h => by cases h⟩

/-- **C177**: through every sound stack of layers, of any depth, for files and folders alike, asking with metadata that a
lookup returned gives what the source it stems from says about its own metadata, nothing for what layers made up, and
leaves the caller's object as it was. Missing from the full claim: auto-mount layers above version layers whose source does not copy,
and the attributes of root folders below auto-mount layers. -/
theorem C177_partial (env : Env) (direct copies : Bool) (m : XS) (h : Sound env direct copies m) (i : FileInfo)
    (o : Option (Nat × FileInfo)) (hg : m.gives i o) (q : Query) :
    (m.ask i q).result = expected env o q ∧ (m.ask i q).after = i :=
  ⟨(sound env direct copies m h).asks i o hg q, C177_restored env m (sound env direct copies m h).stacked i q⟩

/-- **C177**, at the mount: the names listed are those of the source; a value is given exactly if the source has one, ENODATA
if it has none, and errors of the source are passed on. Missing from the full claim: as in `C177_partial`. -/
theorem C177_mount_partial (env : Env) (direct copies : Bool) (m : XS) (h : Sound env direct copies m) (i : FileInfo)
    (id : Nat) (own : FileInfo) (hg : m.gives i (some (id, own))) :
    listxattr m i = env id own none ∧
    (∀ key v, env id own (some key) = .ok (.value (some v)) → getxattr m i key 0 = .ok (.value (some v))) ∧
    (∀ key, env id own (some key) = .ok (.value none) → getxattr m i key 0 = .error (.os 61)) ∧
    (∀ key e, env id own (some key) = .error e → getxattr m i key 0 = .error e) ∧
    ∀ key n, getxattr m i key (n + 1) = .error (.os 95) := by
  have ha := (sound env direct copies m h).asks i (some (id, own)) hg
  have hget : ∀ key, getxattr m i key 0 = orNoData (env id own (some key)) := by
    intro key
    show (if (0 : Nat) ≠ 0 then _ else orNoData (m.ask i (some key)).result) = _
    rw [if_neg (by decide), ha (some key)]
    rfl
  refine ⟨ha none, ?_, ?_, ?_, ?_⟩
  · intro key v hv; rw [hget, hv]; rfl
  · intro key hv; rw [hget, hv]; rfl
  · intro key e hv; rw [hget, hv]; rfl
  · intro key n; exact if_pos (by omega)

/-- **C177**, at the mount: folders that layers made up have no attributes. -/
theorem C177_made (env : Env) (direct copies : Bool) (m : XS) (h : Sound env direct copies m) (i : FileInfo)
    (hg : m.gives i none) : listxattr m i = .ok (.keys []) ∧ ∀ key, getxattr m i key 0 = .error (.os 61) := by
  have ha := (sound env direct copies m h).asks i none hg
  refine ⟨ha none, ?_⟩
  intro key
  show (if (0 : Nat) ≠ 0 then _ else orNoData (m.ask i (some key)).result) = _
  rw [if_neg (by decide), ha (some key)]
  rfl

/-- A source whose entries have the attribute `a`, as long as they are its own. -/
def sampleEnv : Env := fun _ i q =>
  match i.userdata, q with
  | [.own _], none => .ok (.keys [['a']])
  | [.own n], some key => if key = ['a'] then .ok (.value (some [n.toUInt8])) else .ok (.value none)
  | _, q => .ok (nothing q)

/-- The root folder of a folder or archive with attributes. -/
def sampleRoot : FileInfo := rootInfo [.own 1]

/-- **C177 is violated by the code**: an auto-mount layer shows no attributes of its root folder, although the mounted folder has some. -/
theorem C177_violated : ¬ C177_statement := by
  intro h
  have hs : Stacked sampleEnv (.auto [(['/'], (.base sampleEnv 0, sampleRoot.push (.str ['/'])))]) := by
    refine .auto _ ?_
    intro mp m root hm
    simp only [Dict.get?] at hm
    split at hm
    · cases hm; exact .base _
    · cases hm
  have := (h sampleEnv _ hs (sampleRoot.push (.str ['/'])) (some (0, sampleRoot))
    (.inl ⟨['/'], _, _, sampleRoot, rfl, ⟨rfl, .inl (fun h => by cases h)⟩, rfl⟩) none).1
  exact absurd this (by decide +kernel)

/-- The claim for entries other than root folders. -/
def C177_inner_statement : Prop :=
  ∀ (env : Env) (m : XS), Stacked env m → ∀ i id own, m.gives i (some (id, own)) → isDir own.mode = false → ∀ q,
    (m.ask i q).result = env id own q

/-- **C177 is violated by the code** for files, too: an auto-mount layer above a version layer above a plain source passes on
metadata that still contains the tag of the version layer, and the attributes are not found. -/
theorem C177_inner_violated : ¬ C177_inner_statement := by
  intro h
  have hs : Stacked sampleEnv (.auto [(['/'], (.versions (.base sampleEnv 0), rootInfo []))]) := by
    refine .auto _ ?_
    intro mp m root hm
    simp only [Dict.get?] at hm
    split at hm
    · cases hm; exact .versions _ (.base _)
    · cases hm
  have := h sampleEnv _ hs ⟨0o100644, [], 0, [.str ['/'], .file, .own 7]⟩ 0 ⟨0o100644, [], 0, [.own 7]⟩
    (.inl ⟨['/'], _, _, ⟨0o100644, [], 0, [.file, .own 7]⟩, rfl, .inl ⟨_, ⟨rfl, .inl (fun h => by cases h)⟩, rfl⟩, rfl⟩) (by decide) none
  exact absurd this (by decide +kernel)

/-- A case of `C177_partial`: versions over auto-mounted archives over sub-volumes, with a nested archive at `/n`. -/
def demoStack : XS := .versions (.auto [
  (['/'], (.subvolumes [(['a'], .base sampleEnv 0)], rootInfo [.str ['/'], .none])),
  (['/', 'n'], (.base sampleEnv 1, rootInfo [.str ['/', 'n']]))])

theorem demo_sound : Sound sampleEnv true false demoStack := by
  refine .versions _ (.auto _ ?_ ?_ ?_)
  · intro mp m root hm
    simp only [Dict.get?] at hm
    split at hm
    · cases hm
      refine .weaken _ false _ (.subvolumes _ _ ?_)
      intro n c hc
      simp only [Dict.get?] at hc
      split at hc
      · cases hc; exact .base _
      · cases hc
    · split at hm
      · cases hm; exact .base _
      · cases hm
  · intro mp m root j o hm hj hr
    simp only [Dict.get?] at hm
    split at hm
    · cases hm
      rcases hj with ⟨n, c, k, _, _, rfl⟩ | ⟨_, rfl⟩
      · have := congrArg FileInfo.userdata hr
        simp [FileInfo.push, rootInfo] at this
      · intro q; rfl
    · split at hm
      · cases hm
        have hu : j.userdata = [] := by
          have := congrArg FileInfo.userdata hr
          simp only [FileInfo.push, rootInfo, List.cons.injEq] at this
          exact this.2
        obtain ⟨rfl, hj⟩ := hj
        rcases hj with hj | hj
        · exact absurd hu hj
        · exact hj
      · cases hm
  · intro mp m root hm hu
    simp only [Dict.get?] at hm
    split at hm
    · cases hm; cases hu
    · split at hm
      · cases hm
        refine ⟨1, rfl, ?_⟩
        intro i q hi
        unfold sampleEnv
        rw [hi]
      · cases hm

example : Sound sampleEnv true false demoStack ∧
    demoStack.gives ⟨0o100644, [], 0, [.file, .str ['/'], .str ['a'], .own 3]⟩ (some (0, ⟨0o100644, [], 0, [.own 3]⟩)) ∧
    demoStack.gives (rootInfo [.file, .str ['/', 'n']]) none ∧
    getxattr demoStack ⟨0o100644, [], 0, [.file, .str ['/'], .str ['a'], .own 3]⟩ ['a'] 0 = .ok (.value (some [3])) :=
  ⟨demo_sound,
    .inl ⟨_, .inl ⟨['/'], _, _, _, rfl, .inl ⟨['a'], _, _, rfl, ⟨rfl, .inl (fun h => by cases h)⟩, rfl⟩, rfl⟩, rfl⟩,
    .inl ⟨_, .inr ⟨['/', 'n'], _, rfl, rfl, rfl⟩, rfl⟩, by decide +kernel⟩

end Verif.Compose.Attrs
