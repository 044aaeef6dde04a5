import Verif.Formats.Fsspec

/-!
# C154, C155: URLs of remote files and folders
(core/ratarmountcore/mountsource/factory.py:109-256)

The remote side is given by what the library tells about paths. The check for HTTPS, the log, the version of Python and missing libraries are
not modelled. Git URLs are modelled in `Verif.Formats.GitUrl`.
-/

namespace Verif.Url

open Verif.Py Verif.Index Verif.Compose

/-! ## The parts of a URL -/

/-- `url.split('://', 1)`, if it has two parts (factory.py:132-133). -/
def cutScheme : Str → Option (Str × Str)
  | [] => none
  | ':' :: '/' :: '/' :: rest => some ([], rest)
  | c :: cs => (cutScheme cs).map (fun p => (c :: p.1, p.2))

/-- `[^:/]*` and then a colon, `[^@/]*` and then an at sign (factory.py:167): what is before the stop and after it. -/
def upTo (stop : Char) (s : Str) : Option (Str × Str) :=
  match s.dropWhile (fun c => decide (c ≠ stop ∧ c ≠ '/')) with
  | c :: rest => if c = stop then some (s.takeWhile (fun c => decide (c ≠ stop ∧ c ≠ '/')), rest) else none
  | [] => none

/-- `(?:([^:/]*):([^@/]*)@)?` (factory.py:167): the user and the password, and the rest. -/
def login (s : Str) : Option (Str × Str) × Str :=
  match upTo ':' s with
  | none => (none, s)
  | some (user, rest) => match upTo '@' rest with
    | none => (none, s)
    | some (password, rest') => (some (user, password), rest')

/-- `([^/]*)(.*)` (factory.py:167): the host and the path. A dot does not match the end of a line. -/
def hostPath (s : Str) : Str × Str :=
  (s.takeWhile (fun c => decide (c ≠ '/')), (s.dropWhile (fun c => decide (c ≠ '/'))).takeWhile (fun c => decide (c ≠ '\n')))

/-- The match of a WebDAV URL (factory.py:167-176). -/
def webdav (s : Str) : Option (Str × Str) × Str × Str := ((login s).1, hostPath (login s).2)

/-- The credentials (factory.py:177-181): those of the URL, or those of the environment if there are both. -/
def auth (url : Option (Str × Str)) (user password : Option Str) : Option (Str × Str) :=
  match url with
  | some c => some c
  | none => match user, password with
    | some u, some p => some (u, p)
    | _, _ => none

/-- The path on a server that is reached with SSH (factory.py:117-123). -/
def sshPath (path : Str) : Str :=
  match path with
  | '/' :: rest => if rest = [] then ['.'] else rest
  | [] => ['.']
  | p => p

/-- The path on Dropbox (factory.py:208-215). -/
def dropboxPath (path : Str) : Str := rstrip '/' (if path ≠ [] ∧ path.head? ≠ some '/' then '/' :: path else path)

/-! ## What is opened -/

/-- What the library tells about a path (factory.py:226-254): `html` is the type of the answer to a HTTP request, `seekable` whether the bytes
can be read in any order. -/
structure Remote where
  http : Bool
  found : Str → Bool
  isdir : Str → Bool
  html : Str → Bool
  seekable : Str → Bool

/-- What is opened: a local path, a mounted folder or a file (factory.py:131-256). -/
inductive Opened where
  | local_ (path : Str)
  | folder (path : Str)
  | file (path : Str)
deriving DecidableEq

/-- Opening a file that was found not to be a folder (factory.py:233-256). -/
def openFile (r : Remote) (path : Str) : Except PyErr Opened :=
  if r.found path = false then .error .ratarmount
  else if r.seekable path then .ok (.file path) else .error .valueError

/-- Opening a path (factory.py:226-256). Asking HTTP servers for a path that they do not have fails. -/
def openRemote (r : Remote) (path : Str) : Except PyErr Opened :=
  if r.http = true then
    if r.found path = false then .error .fileNotFound
    else if r.html path = true ∧ r.isdir path = true then .ok (.folder path) else openFile r path
  else if r.isdir path = true then .ok (.folder path) else openFile r path

/-- `_open_sshfs_mount_source` (factory.py:109-128). -/
def openSsh (r : Remote) (isfile : Str → Bool) (path : Str) : Except PyErr Opened :=
  if r.found (sshPath path) = false then .error .ratarmount
  else if isfile (sshPath path) then .ok (.file (sshPath path)) else .ok (.folder (sshPath path))

/-- The kinds of protocols (factory.py:139-218). -/
inductive Kind where
  | local_
  | webdav
  | dropbox
  | other

/-- The kind of a protocol (factory.py:139-218), without Git and SSH. -/
def kindOf (protocol : Str) : Kind :=
  if protocol = "file".toList then .local_
  else if protocol = "webdav".toList then .webdav
  else if protocol = "dropbox".toList then .dropbox
  else .other

/-- `try_open_url` (factory.py:131-256) without Git and SSH; `parse` is how the library splits other URLs. -/
def openUrl (r : Remote) (parse : Str → Str) (url : Str) : Except PyErr Opened :=
  match cutScheme url with
  | none => .error .ratarmount
  | some ([], _) => .error .ratarmount
  | some (protocol, rest) => match kindOf protocol with
    | .local_ => .ok (.local_ rest)
    | .webdav => openRemote r (webdav rest).2.2
    | .dropbox => openRemote r (dropboxPath rest)
    | .other => openRemote r (parse url)

/-! ## Specification -/

/-- How a WebDAV URL is written after `webdav://`: `[user:password@]host[:port][/path]`. -/
def written (login : Option (Str × Str)) (host path : Str) : Str :=
  (match login with | some (u, p) => u ++ ':' :: p ++ ['@'] | none => []) ++ host ++ path

/-- What is at a path. -/
inductive Thing where
  | nothing
  | file
  | folder

/-- What a remote side tells when this is at a path: servers that speak HTTP have folders as pages with links. -/
def Tells (r : Remote) (path : Str) : Thing → Prop
  | .nothing => r.found path = false ∧ r.isdir path = false
  | .file => r.found path = true ∧ (if r.http = true then r.html path = true → r.isdir path = false else r.isdir path = false)
  | .folder => r.found path = true ∧ r.isdir path = true ∧ (r.http = true → r.html path = true)

/-- What has to be opened. -/
def expected (r : Remote) (path : Str) : Thing → Except PyErr Opened
  | .folder => .ok (.folder path)
  | .file => if r.seekable path then .ok (.file path) else .error .valueError
  | .nothing => .error (if r.http then .fileNotFound else .ratarmount)

/-! ## Proofs -/

theorem cutScheme_written : ∀ (scheme rest : Str), ':' ∉ scheme → cutScheme (scheme ++ "://".toList ++ rest) = some (scheme, rest) := by
  intro scheme
  induction scheme with
  | nil => intro rest _; rfl
  | cons c cs ih =>
    intro rest h
    have hc : c ≠ ':' := fun e => h (e ▸ List.mem_cons_self)
    show cutScheme (c :: (cs ++ "://".toList ++ rest)) = _
    unfold cutScheme
    split
    · contradiction
    · rename_i heq
      exact absurd (List.cons.inj heq).1 hc
    · rename_i heq
      obtain ⟨h1, h2⟩ := List.cons.inj heq
      rw [← h1, ← h2, ih rest (fun hm => h (List.mem_cons_of_mem _ hm))]
      rfl

theorem takeWhile_stop {α : Type} (p : α → Bool) (a : List α) (x : α) (b : List α) (h : ∀ y ∈ a, p y = true) (hx : p x = false) :
    (a ++ x :: b).takeWhile p = a ∧ (a ++ x :: b).dropWhile p = x :: b := by
  induction a with
  | nil => simp [hx]
  | cons y a ih =>
    have := ih (fun z hz => h z (List.mem_cons_of_mem _ hz))
    rw [List.cons_append, List.takeWhile_cons_of_pos (h y List.mem_cons_self), List.dropWhile_cons_of_pos (h y List.mem_cons_self)]
    exact ⟨by rw [this.1], this.2⟩

theorem takeWhile_all {α : Type} (p : α → Bool) (a : List α) (h : ∀ y ∈ a, p y = true) : a.takeWhile p = a ∧ a.dropWhile p = [] := by
  induction a with
  | nil => simp
  | cons y a ih =>
    have := ih (fun z hz => h z (List.mem_cons_of_mem _ hz))
    rw [List.takeWhile_cons_of_pos (h y List.mem_cons_self), List.dropWhile_cons_of_pos (h y List.mem_cons_self)]
    exact ⟨by rw [this.1], this.2⟩

theorem upTo_found (stop : Char) (a b : Str) (h1 : stop ∉ a) (h2 : '/' ∉ a) : upTo stop (a ++ stop :: b) = some (a, b) := by
  have hp := takeWhile_stop (fun c : Char => decide (c ≠ stop ∧ c ≠ '/')) a stop b
    (by intro y hy; exact decide_eq_true ⟨fun e => h1 (e ▸ hy), fun e => h2 (e ▸ hy)⟩) (by simp)
  unfold upTo
  rw [hp.1, hp.2]
  simp

/-- Before the first slash, or in the whole text, there is no stop. -/
theorem upTo_missing (stop : Char) (a b : Str) (hs : stop ≠ '/') (h1 : stop ∉ a) (h2 : '/' ∉ a) (hb : b = [] ∨ b.head? = some '/') :
    upTo stop (a ++ b) = none := by
  have hall : ∀ y ∈ a, (fun c : Char => decide (c ≠ stop ∧ c ≠ '/')) y = true := by
    intro y hy
    exact decide_eq_true ⟨fun e => h1 (e ▸ hy), fun e => h2 (e ▸ hy)⟩
  cases b with
  | nil =>
    have hp := takeWhile_all (fun c : Char => decide (c ≠ stop ∧ c ≠ '/')) a hall
    unfold upTo
    rw [List.append_nil, hp.2]
  | cons x b =>
    rcases hb with hb | hb
    · cases hb
    · have hx : x = '/' := by simpa using hb
      subst hx
      have hp := takeWhile_stop (fun c : Char => decide (c ≠ stop ∧ c ≠ '/')) a '/' b hall (by simp)
      unfold upTo
      rw [hp.2]
      simp [Ne.symm hs]

theorem hostPath_written (host path : Str) (h : '/' ∉ host) (hp : path = [] ∨ path.head? = some '/') (hl : '\n' ∉ path) :
    hostPath (host ++ path) = (host, path) := by
  have hall : ∀ y ∈ host, (fun c : Char => decide (c ≠ '/')) y = true := by
    intro y hy
    exact decide_eq_true (fun e => h (e ▸ hy))
  have hline := takeWhile_all (fun c : Char => decide (c ≠ '\n')) path
    (by intro y hy; exact decide_eq_true (fun e => hl (e ▸ hy)))
  cases path with
  | nil =>
    have := takeWhile_all (fun c : Char => decide (c ≠ '/')) host hall
    unfold hostPath
    rw [List.append_nil, this.1, this.2]
    rfl
  | cons x b =>
    rcases hp with hp | hp
    · cases hp
    · have hx : x = '/' := by simpa using hp
      subst hx
      have := takeWhile_stop (fun c : Char => decide (c ≠ '/')) host '/' b hall (by simp)
      unfold hostPath
      rw [this.1, this.2, hline.1]

/-- C154: every WebDAV URL means its parts. Users have no colon and no slash, passwords no at sign and no slash; hosts have no slash and no at
sign. -/
theorem C154_webdav (l : Option (Str × Str)) (host path : Str) (hu : ∀ u p, l = some (u, p) → ':' ∉ u ∧ '/' ∉ u ∧ '@' ∉ p ∧ '/' ∉ p)
    (hh : '/' ∉ host ∧ '@' ∉ host) (hp : path = [] ∨ path.head? = some '/') (hl : '\n' ∉ path) :
    webdav (written l host path) = (l, host, path) := by
  have hlog : login (written l host path) = (l, host ++ path) := by
    unfold login
    cases l with
    | some up =>
      obtain ⟨u, p⟩ := up
      obtain ⟨h1, h2, h3, h4⟩ := hu u p rfl
      have e : written (some (u, p)) host path = u ++ ':' :: (p ++ '@' :: (host ++ path)) := by simp [written]
      rw [e, upTo_found ':' u _ h1 h2]
      simp only
      rw [upTo_found '@' p _ h3 h4]
    | none =>
      show (match upTo ':' (host ++ path) with
        | none => (none, host ++ path)
        | some (user, rest) => match upTo '@' rest with
          | none => (none, host ++ path)
          | some (password, rest') => (some (user, password), rest')) = (none, host ++ path)
      by_cases hc : ':' ∈ host
      · obtain ⟨a, b, hab, ha⟩ := List.eq_append_cons_of_mem hc
        have e : host ++ path = a ++ ':' :: (b ++ path) := by rw [hab]; simp
        have h2 : '/' ∉ a := fun hm => hh.1 (by rw [hab]; exact List.mem_append_left _ hm)
        have h3 : '/' ∉ b := fun hm => hh.1 (by rw [hab]; exact List.mem_append_right _ (List.mem_cons_of_mem _ hm))
        have h4 : '@' ∉ b := fun hm => hh.2 (by rw [hab]; exact List.mem_append_right _ (List.mem_cons_of_mem _ hm))
        have hf : upTo ':' (host ++ path) = some (a, b ++ path) := by
          rw [e]
          exact upTo_found ':' a (b ++ path) ha h2
        rw [hf]
        simp only
        rw [upTo_missing '@' b path (by decide) h4 h3 hp]
      · rw [upTo_missing ':' host path (by decide) hc hh.1 hp]
  unfold webdav
  rw [hlog]
  simp only
  rw [hostPath_written host path hh.1 hp hl]

/-- C154: the credentials of the URL win, those of the environment are used only if both are set. -/
theorem C154_auth (l : Option (Str × Str)) (user password : Option Str) (c : Str × Str) :
    auth l user password = some c ↔ l = some c ∨ l = none ∧ user = some c.1 ∧ password = some c.2 := by
  cases l with
  | some x => simp [auth]
  | none =>
    cases user <;> cases password <;> simp [auth]
    obtain ⟨a, b⟩ := c
    simp

/-- C154: paths on Dropbox start with a slash, do not end with one, and are otherwise as written. The root is empty. -/
theorem C154_dropbox (ns : List Str) (hn : ∀ n ∈ ns, IsName n) (hne : ns ≠ []) (lead : Bool) (k : Nat) :
    dropboxPath ((if lead then ['/'] else []) ++ join '/' ns ++ List.replicate k '/') = '/' :: join '/' ns := by
  have hj : join '/' ns ≠ [] := Fsspec.join_ne_nil ns hne hn
  have hlast : (join '/' ns).getLast? ≠ some '/' := getLast_join ns hne hn
  have hstrip : ∀ s : Str, s ≠ [] → s.getLast? ≠ some '/' → rstrip '/' (s ++ List.replicate k '/') = s := by
    intro s _ hs
    have : (s ++ List.replicate k '/').reverse.dropWhile (fun c : Char => decide (c = '/')) = s.reverse.dropWhile (fun c : Char => decide (c = '/')) := by
      rw [List.reverse_append, List.reverse_replicate]
      induction k with
      | zero => rfl
      | succ k ih =>
        rw [List.replicate_succ, List.cons_append, List.dropWhile_cons_of_pos (by simp)]
        exact ih
    have h2 := Fsspec.rstrip_of_last hs
    unfold rstrip at h2 ⊢
    rw [this]
    exact h2
  have hs : ('/' :: join '/' ns).getLast? ≠ some '/' := by
    rw [List.getLast?_cons_of_ne_nil hj]
    exact hlast
  cases lead with
  | true =>
    unfold dropboxPath
    rw [if_neg (by simp)]
    exact hstrip ('/' :: join '/' ns) (by simp) hs
  | false =>
    have hh := join_head ns (fun n h => ⟨(hn n h).1, (hn n h).2.1⟩)
    unfold dropboxPath
    rw [if_pos]
    · exact hstrip ('/' :: join '/' ns) (by simp) hs
    · cases hc : join '/' ns with
      | nil => exact absurd hc hj
      | cons x xs =>
        rw [hc] at hh
        refine ⟨by simp, ?_⟩
        simpa using hh

/-- C154: one slash is removed from paths for SSH, so that they can be relative to the home folder or absolute. -/
theorem C154_ssh (path : Str) (h : path ≠ []) : sshPath ('/' :: path) = path ∧ sshPath [] = ['.'] ∧ sshPath ['/'] = ['.'] := by
  refine ⟨?_, rfl, rfl⟩
  show (if path = [] then ['.'] else path) = path
  rw [if_neg h]

/-- C155: a folder is mounted, a file is opened if it can be read in any order, and nothing else. -/
theorem C155_opened (r : Remote) (path : Str) (t : Thing) (h : Tells r path t) : openRemote r path = expected r path t := by
  obtain ⟨http, found, isdir, html, seekable⟩ := r
  unfold openRemote openFile expected
  cases t with
  | nothing =>
    obtain ⟨h1, h2⟩ := h
    cases http <;> simp_all
  | file =>
    obtain ⟨h1, h2⟩ := h
    cases http
    · simp at h2
      simp_all
    · simp at h2
      have : ¬ (html path = true ∧ isdir path = true) := by
        intro hx
        rw [h2 hx.1] at hx
        cases hx.2
      simp only at h1
      simp only [if_true, if_neg this, h1]
      simp
  | folder =>
    obtain ⟨h1, h2, h3⟩ := h
    cases http <;> simp_all

/-- C155, SSH: only what exists is opened, files as files and everything else as a folder. -/
theorem C155_ssh (r : Remote) (isfile : Str → Bool) (path : Str) :
    openSsh r isfile path = if r.found (sshPath path) = true then
      .ok (if isfile (sshPath path) then .file (sshPath path) else .folder (sshPath path)) else .error .ratarmount := by
  unfold openSsh
  cases r.found (sshPath path) <;> cases isfile (sshPath path) <;> simp

/-- C155: local URLs give the path, and each protocol is used with its own path. -/
theorem C155_protocol (r : Remote) (parse : Str → Str) (rest : Str) :
    openUrl r parse ("file://".toList ++ rest) = .ok (.local_ rest) ∧
    openUrl r parse ("webdav://".toList ++ rest) = openRemote r (webdav rest).2.2 ∧
    openUrl r parse ("dropbox://".toList ++ rest) = openRemote r (dropboxPath rest) ∧
    openUrl r parse ("://".toList ++ rest) = .error .ratarmount := by
  refine ⟨?_, ?_, ?_, ?_⟩
  · unfold openUrl
    rw [show cutScheme ("file://".toList ++ rest) = some ("file".toList, rest) from cutScheme_written "file".toList rest (by decide)]
    rfl
  · unfold openUrl
    rw [show cutScheme ("webdav://".toList ++ rest) = some ("webdav".toList, rest) from cutScheme_written "webdav".toList rest (by decide)]
    rfl
  · unfold openUrl
    rw [show cutScheme ("dropbox://".toList ++ rest) = some ("dropbox".toList, rest) from cutScheme_written "dropbox".toList rest (by decide)]
    rfl
  · rfl

/-- C155: other protocols are left to the library, with the whole URL. -/
theorem C155_library (r : Remote) (parse : Str → Str) (protocol rest : Str) (hne : protocol ≠ []) (hc : ':' ∉ protocol)
    (h : protocol ≠ "file".toList ∧ protocol ≠ "webdav".toList ∧ protocol ≠ "dropbox".toList) :
    openUrl r parse (protocol ++ "://".toList ++ rest) = openRemote r (parse (protocol ++ "://".toList ++ rest)) := by
  have hk : kindOf protocol = .other := by
    unfold kindOf
    rw [if_neg h.1, if_neg h.2.1, if_neg h.2.2]
  unfold openUrl
  rw [cutScheme_written protocol rest hc]
  cases protocol with
  | nil => exact absurd rfl hne
  | cons x xs =>
    simp only
    rw [hk]

/-! ## Samples -/

example : webdav "me:p:w@host:80/a/b".toList = (some ("me".toList, "p:w".toList), "host:80".toList, "/a/b".toList) :=
  C154_webdav (some ("me".toList, "p:w".toList)) "host:80".toList "/a/b".toList
    (by intro u p h; cases h; decide) (by decide) (by decide) (by decide)

example : webdav "host:80/a@b:c@d".toList = (none, "host:80".toList, "/a@b:c@d".toList) :=
  C154_webdav none "host:80".toList "/a@b:c@d".toList (by intro u p h; cases h) (by decide) (by decide) (by decide)

example : dropboxPath "a/b//".toList = "/a/b".toList :=
  C154_dropbox ["a".toList, "b".toList] (by unfold IsName; decide) (by decide) false 2

/-- A server with one folder. -/
def server : Remote where
  http := false
  found := fun p => decide (p = "/a".toList)
  isdir := fun p => decide (p = "/a".toList)
  html := fun _ => false
  seekable := fun _ => true

example : openUrl server id "webdav://me:pw@host/a".toList = .ok (.folder "/a".toList) := by
  rw [show "webdav://me:pw@host/a".toList = "webdav://".toList ++ "me:pw@host/a".toList from rfl, (C155_protocol server id _).2.1]
  exact C155_opened server "/a".toList .folder ⟨by decide, by decide, by decide⟩

end Verif.Url
