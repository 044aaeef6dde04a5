import Verif.Fuse.Handles

/-!
# C46, C51: reading and writing through handles
-/

namespace Verif.Fuse

open Verif.Py Verif.Overlay

/-! ## specification -/

/-- What a user of an ordinary file system has: the tree, and for each opened handle the path of its file, and whether it
was opened for writing. `last` is the last handle that was given out. -/
structure View where
  tree : Tree
  last : Nat
  file : Nat → Option (Path × Bool)

/-- The content of a file. -/
def content (t : Tree) (p : Path) : Bytes :=
  match t p with
  | some (.file d) => d
  | _ => []

/-- Where a path is after an operation. -/
def moved (o : Op) (p : Path) : Path :=
  match o with
  | .rename old new => if p = old then new else p
  | _ => p

/-- The calls of the kernel: paths are looked up before, handles are open and used with the path their file has now. A
file that is still open is not removed: libfuse hides it by renaming it. -/
def View.Legal (f : Config) (v : View) : Call → Prop
  | .open p _ => (∃ d, v.tree p = some (.file d)) ∧ f.command p = false
  | .create p _ => Vacant v.tree p ∧ f.command p = false
  | .read p _ _ fh => ∃ w, v.file fh = some (p, w)
  | .write p _ _ fh => v.file fh = some (p, true)
  | .release fh => v.file fh ≠ none
  | .op o =>
    Overlay.Legal v.tree o ∧ (∀ p n, o = .truncate p n → f.control p = false) ∧
      (∀ fh p w, v.file fh = some (p, w) → o ≠ .unlink p ∧ ∀ old, o ≠ .rename old p)

/-- The state after a call. -/
def View.step (v : View) : Call → View
  | .open p w => { v with last := v.last + 1, file := fun fh => if fh = v.last + 1 then some (p, w) else v.file fh }
  | .create p mode =>
    { tree := v.tree.step (.create p mode), last := v.last + 1,
      file := fun fh => if fh = v.last + 1 then some (p, true) else v.file fh }
  | .read _ _ _ _ => v
  | .write p data offset _ => { v with tree := v.tree.step (.write p offset data) }
  | .release fh => { v with file := fun k => if k = fh then none else v.file k }
  | .op o => { v with tree := v.tree.step o, file := fun fh => (v.file fh).map (fun pw : Path × Bool => (moved o pw.1, pw.2)) }

/-- What a call answers. -/
def View.answer (v : View) : Call → Answer
  | .open _ _ | .create _ _ => .handle (v.last + 1)
  | .read p size offset _ => .bytes (pread (content v.tree p) offset size)
  | .write _ data _ _ => .count data.length
  | .release fh => .count fh
  | .op _ => .done

/-! ## the mount -/

/-- What holds between the mount and the specification. -/
structure Sim (f : Config) (m : Mount) (v : View) : Prop where
  overlay : f.overlay = true
  inv : Inv f.cfg m.st
  tree : shown f.cfg m.st = v.tree
  last : m.last = v.last
  files : ∀ fh p w, v.file fh = some (p, w) → fh ≤ m.last ∧ (∃ d, v.tree p = some (.file d)) ∧
    ∃ e, Dict.get? m.opened fh = some e ∧ e.closed = false ∧
      match e.handle with
      | .fd n => Dict.get? m.st.host.entries p = some n
      | .object n => e.write = w ∧ Dict.get? m.st.host.entries p = some n
      | .below d => e.write = w ∧ (m.st.host.node p = none → ∃ i, Dict.get? f.cfg.lower p = some i ∧ i.kind = .file ∧ i.data = d)
      | .command _ => False

/-- Where a call does what it should: the operations as for histories without handles, and a file of the archive that
was opened is not read with the old handle after another call has copied it into the overlay. -/
def Works (f : Config) (m : Mount) : Call → Prop
  | .read p _ _ fh => ∀ e d, Dict.get? m.opened fh = some e → e.handle = .below d → m.st.host.node p = none
  | .op o => Overlay.Works f.cfg m.st o
  | _ => True

variable {f : Config} {m : Mount} {v : View}

theorem inode_data (hI : Inv f.cfg m.st) {p : Path} {n : Nat} {d : Bytes} (hs : shown f.cfg m.st p = some (.file d))
    (hn : Dict.get? m.st.host.entries p = some n) : (m.st.host.inode n).kind = .file ∧ (m.st.host.inode n).data = d := by
  have : m.st.host.node p = some (m.st.host.inode n) := by unfold Host.node; rw [hn]; rfl
  exact host_file hI hs this

theorem openOverlay_ok {c : Cfg} {s : St} (hI : Inv c s) {p : Path} {d : Bytes} (hx : shown c s p = some (.file d)) :
    ∃ s1 n, openOverlay c s p true = (s1, .ok n) ∧ Inv c s1 ∧ shown c s1 = shown c s ∧
      Dict.get? s1.host.entries p = some n ∧ (s1.host.inode n).kind = .file ∧ (s1.host.inode n).data = d ∧
      ∀ q, Keeps q s.host s1.host := by
  unfold openOverlay
  cases hn : s.host.node p with
  | some i =>
    obtain ⟨n, hg, hin⟩ := entry_some _ _ _ hn
    obtain ⟨hk, hd⟩ := host_file hI hx hn
    rw [if_pos (lexists_true _ _ i hn), openExisting_ok _ _ n hg (by rw [hin]; exact hk)]
    exact ⟨s, n, rfl, hI, rfl, hg, by rw [hin]; exact hk, by rw [hin]; exact hd, fun q => Keeps.refl q _⟩
  | none =>
    rw [if_neg (by rw [lexists_false _ _ hn]; simp), msExists_of_shown hx]
    obtain ⟨s1, n, e1, e2, e3, e4, e5, e6⟩ := copied hI hx hn
    simp only [Bool.not_true, Bool.false_eq_true, if_false, if_true]
    have hk := fun q => ensureModifiable_keeps (c := c) (s := s) q p
    rw [e1] at hk ⊢
    simp only
    rw [openExisting_ok _ _ n e4 e5]
    exact ⟨s1, n, rfl, e2, e3, e4, e5, e6, hk⟩

theorem node_kept {q : Path} {h h' : Host} (hk : Keeps q h h') (hn : h'.node q = none) : h.node q = none := by
  cases hg : Dict.get? h.entries q with
  | none => exact (entry_none h q).mp hg
  | some n =>
    have := hk n hg
    rw [(entry_none h' q).mpr hn] at this
    simp at this

/-- The part of the simulation for a file whose path is kept. -/
theorem handle_kept {s s' : St} {p : Path} {w : Bool} {e : Opened} {cfg : Cfg} (hk : Keeps p s.host s'.host)
    (h : match e.handle with
      | .fd n => Dict.get? s.host.entries p = some n
      | .object n => e.write = w ∧ Dict.get? s.host.entries p = some n
      | .below d => e.write = w ∧ (s.host.node p = none → ∃ i, Dict.get? cfg.lower p = some i ∧ i.kind = .file ∧ i.data = d)
      | .command _ => False) :
    match e.handle with
      | .fd n => Dict.get? s'.host.entries p = some n
      | .object n => e.write = w ∧ Dict.get? s'.host.entries p = some n
      | .below d => e.write = w ∧ (s'.host.node p = none → ∃ i, Dict.get? cfg.lower p = some i ∧ i.kind = .file ∧ i.data = d)
      | .command _ => False := by
  cases hh : e.handle with
  | fd n => rw [hh] at h; exact hk n h
  | object n => rw [hh] at h; exact ⟨h.1, hk n h.2⟩
  | below d => rw [hh] at h; exact ⟨h.1, fun hn => h.2 (node_kept hk hn)⟩
  | command b => rw [hh] at h; exact h

theorem file_stays {t : Tree} {o : Op} {p : Path} {d : Bytes} (hL : Overlay.Legal t o) (hp : t p = some (.file d))
    (hr : ¬ o.replaces p) : ∃ d', (t.step o) p = some (.file d') := by
  have hne : ∀ q x, Vacant t q → (t.at q x) p = some (.file d) := by
    intro q x hv
    unfold Tree.at
    rw [if_neg]
    · exact hp
    · rintro rfl; rw [hv.2.1] at hp; simp at hp
  have hat : ∀ q x, q ≠ p → (t.at q x) p = some (.file d) := by
    intro q x h
    unfold Tree.at
    rw [if_neg h]; exact hp
  cases o with
  | create q mode => exact ⟨d, hne q _ hL⟩
  | mkdir q mode => exact ⟨d, hne q _ hL⟩
  | symlink q target => exact ⟨d, hne q _ hL⟩
  | mknod q mode => exact ⟨d, hne q _ hL⟩
  | unlink q => exact ⟨d, hat q _ hr⟩
  | rmdir q => exact ⟨d, hat q _ hr⟩
  | chmod q mode => exact ⟨d, hp⟩
  | chown q u g => exact ⟨d, hp⟩
  | utimens q x => exact ⟨d, hp⟩
  | rename old new =>
    simp only [Op.replaces, not_or] at hr
    refine ⟨d, ?_⟩
    simp only [Tree.step, Tree.at, if_neg hr.1, if_neg hr.2]
    exact hp
  | write q offset data =>
    obtain ⟨d0, hd0⟩ := hL
    simp only [Tree.step, hd0]
    by_cases hq : q = p
    · subst hq; exact ⟨pwrite d0 offset data, by simp [Tree.at]⟩
    · exact ⟨d, hat q _ hq⟩
  | truncate q n =>
    obtain ⟨d0, hd0⟩ := hL
    simp only [Tree.step, hd0]
    by_cases hq : q = p
    · subst hq; exact ⟨resize d0 n, by simp [Tree.at]⟩
    · exact ⟨d, hat q _ hq⟩

theorem sim_open (hs : Sim f m v) {p : Path} {w : Bool} (hL : v.Legal f (.open p w)) :
    ∃ m', openCall f m p w = (m', v.answer (.open p w)) ∧ Sim f m' (v.step (.open p w)) := by
  obtain ⟨⟨d, hd⟩, hc⟩ := hL
  have hsh : shown f.cfg m.st p = some (.file d) := by rw [hs.tree]; exact hd
  have hsrc : ∃ h, openSource f m p = .ok h ∧
      (match h with
      | .fd _ => False
      | .object n => Dict.get? m.st.host.entries p = some n
      | .below d => m.st.host.node p = none → ∃ i, Dict.get? f.cfg.lower p = some i ∧ i.kind = .file ∧ i.data = d
      | .command _ => False) := by
    unfold openSource
    rw [hc, hs.overlay]
    simp only [Bool.false_eq_true, if_false, if_true]
    cases hg : Dict.get? m.st.host.entries p with
    | some n =>
      simp only
      rw [if_pos (inode_data hs.inv hsh hg).1]
      exact ⟨_, rfl, rfl⟩
    | none =>
      obtain ⟨i, hi, hk, hdd⟩ := lower_file hs.inv hsh ((entry_none _ _).mp hg)
      simp only [hi, hk, if_true]
      exact ⟨_, rfl, fun _ => ⟨i, rfl, hk, rfl⟩⟩
  obtain ⟨h, ho, hh⟩ := hsrc
  have hlook : (lookup f m p).isNone = false := by
    unfold lookup
    rw [hs.overlay, if_pos rfl]
    cases hv : view f.cfg m.st p with
    | none => unfold shown at hsh; rw [hv] at hsh; simp at hsh
    | some i => rfl
  refine ⟨(addHandle m h w).1, ?_, hs.overlay, hs.inv, hs.tree, ?_, ?_⟩
  · unfold openCall
    rw [hc, hlook, ho]
    simp [addHandle, View.answer, hs.last]
  · simp [addHandle, View.step, hs.last]
  · intro fh q w' hq
    simp only [View.step] at hq ⊢
    simp only [addHandle]
    by_cases hf : fh = v.last + 1
    · subst hf
      simp only [if_true, Option.some.injEq, Prod.mk.injEq] at hq
      obtain ⟨rfl, rfl⟩ := hq
      rw [hs.last]
      refine ⟨Nat.le_refl _, ⟨d, hd⟩, ⟨w, h, false⟩, by rw [Dict.get?_set, if_pos rfl], rfl, ?_⟩
      cases h with
      | fd n => exact hh.elim
      | object n => exact ⟨rfl, hh⟩
      | below b => exact ⟨rfl, hh⟩
      | command b => exact hh.elim
    · rw [if_neg hf] at hq
      obtain ⟨h1, h2, e, he, h3⟩ := hs.files fh q w' hq
      refine ⟨by omega, h2, e, ?_, h3⟩
      rw [Dict.get?_set, if_neg (by rw [hs.last]; exact fun h => hf h.symm)]
      exact he

theorem sim_create (hs : Sim f m v) {p : Path} {mode : Nat} (hL : v.Legal f (.create p mode)) :
    ∃ m', createCall f m p mode = (m', v.answer (.create p mode)) ∧ Sim f m' (v.step (.create p mode)) := by
  obtain ⟨hv, -⟩ := hL
  have hL' : Overlay.Legal (shown f.cfg m.st) (.create p mode) := by rw [hs.tree]; exact hv
  obtain ⟨s', h1, h2, h3⟩ := step_refines hs.inv (.create p mode) hL' trivial
  have hkeep := fun q => step_keeps hs.inv (.create p mode) hL' q (fun h => h)
  rw [h1] at hkeep
  simp only [Overlay.step, createFile] at h1
  cases hc : Overlay.create f.cfg m.st p mode with
  | mk s1 r =>
    rw [hc] at h1
    cases r with
    | error e => simp at h1
    | ok n =>
      simp only [Prod.mk.injEq, and_true] at h1
      subst h1
      have hn : Dict.get? s1.host.entries p = some n := by
        unfold Overlay.create at hc
        cases ho : openRow f.cfg m.st p mode with
        | error e => rw [ho] at hc; simp at hc
        | ok s2 =>
          rw [ho] at hc
          simp only at hc
          cases ht : s2.host.openTruncate p (f.cfg.newAttrs mode) with
          | error e => rw [ht] at hc; simp at hc
          | ok hn =>
            rw [ht] at hc
            simp only [Prod.mk.injEq, Except.ok.injEq] at hc
            obtain ⟨rfl, rfl⟩ := hc
            exact (openTruncate_keeps (q := p) ht).2
      refine ⟨(addHandle { m with st := s1 } (.fd n) false).1, ?_, hs.overlay, h2, ?_, ?_, ?_⟩
      · unfold createCall
        rw [if_pos hs.overlay, hc]
        simp [addHandle, View.answer, hs.last]
      · simp only [addHandle, View.step]; rw [h3, hs.tree]
      · simp [addHandle, View.step, hs.last]
      · intro fh q w' hq
        simp only [View.step] at hq ⊢
        simp only [addHandle]
        by_cases hf : fh = v.last + 1
        · subst hf
          simp only [if_true, Option.some.injEq, Prod.mk.injEq] at hq
          obtain ⟨rfl, rfl⟩ := hq
          rw [hs.last]
          exact ⟨Nat.le_refl _, ⟨[], by simp [Tree.step, Tree.at]⟩, ⟨false, .fd n, false⟩,
            by rw [Dict.get?_set, if_pos rfl], rfl, hn⟩
        · rw [if_neg hf] at hq
          obtain ⟨g1, ⟨d, g2⟩, e, he, g3, g4⟩ := hs.files fh q w' hq
          refine ⟨by omega, file_stays (o := .create p mode) hv g2 (fun h => h), e, ?_, g3, ?_⟩
          · rw [Dict.get?_set, if_neg (by rw [hs.last]; exact fun h => hf h.symm)]
            exact he
          · exact handle_kept (hkeep q) g4

theorem sim_read (hs : Sim f m v) {p : Path} {size offset fh : Nat} (hL : v.Legal f (.read p size offset fh))
    (hW : Works f m (.read p size offset fh)) :
    readCall f m p size offset fh = v.answer (.read p size offset fh) := by
  obtain ⟨w, hf⟩ := hL
  obtain ⟨-, ⟨d, hd⟩, e, he, hc, hh⟩ := hs.files fh p w hf
  have hsh : shown f.cfg m.st p = some (.file d) := by rw [hs.tree]; exact hd
  have hans : v.answer (.read p size offset fh) = .bytes (pread d offset size) := by
    simp only [View.answer, content, hd]
  rw [hans]
  unfold readCall readOpened
  rw [he]
  simp only
  cases hx : e.handle with
  | fd n =>
    rw [hx] at hh
    simp only [hc, Bool.false_eq_true, if_false, (inode_data hs.inv hsh hh).2]
  | object n =>
    rw [hx] at hh
    simp only [hc, Bool.false_eq_true, if_false, (inode_data hs.inv hsh hh.2).2]
  | below b =>
    rw [hx] at hh
    have hn := hW e b he hx
    obtain ⟨i, hi, hk, hb⟩ := hh.2 hn
    obtain ⟨j, hj, -, hjd⟩ := lower_file hs.inv hsh hn
    rw [hi] at hj
    cases hj
    simp only [hc, Bool.false_eq_true, if_false]
    rw [← hb, hjd]
  | command b => rw [hx] at hh; exact hh.elim

theorem sim_write (hs : Sim f m v) {p : Path} {data : Bytes} {offset fh : Nat} (hL : v.Legal f (.write p data offset fh)) :
    ∃ m', writeCall f m p data offset fh = (m', v.answer (.write p data offset fh)) ∧
      Sim f m' (v.step (.write p data offset fh)) := by
  obtain ⟨-, ⟨d, hd⟩, e, he, hc, hh⟩ := hs.files fh p true hL
  have hsh : shown f.cfg m.st p = some (.file d) := by rw [hs.tree]; exact hd
  have hwL : Overlay.Legal v.tree (.write p offset data) := ⟨d, hd⟩
  -- the state after the write, for a state in which the file is in the overlay folder
  have key : ∀ (s1 : St) (n : Nat) (opened : Dict Nat Opened), Inv f.cfg s1 → shown f.cfg s1 = shown f.cfg m.st →
      Dict.get? s1.host.entries p = some n → (s1.host.inode n).kind = .file → (s1.host.inode n).data = d →
      (∀ q, Keeps q m.st.host s1.host) →
      (∀ k, k ≠ fh → Dict.get? opened k = Dict.get? m.opened k) →
      (∃ e', Dict.get? opened fh = some e' ∧ e'.closed = false ∧ e'.handle = .fd n) →
      Sim f { m with st := writeInode s1 n data offset, opened := opened } (v.step (.write p data offset fh)) := by
    intro s1 n opened hI1 hsh1 hn hk hdd hkeep hoth ⟨e', he', hc', hh'⟩
    obtain ⟨w1, w2⟩ := written hI1 hn hk hdd data offset
    have hkw : ∀ q, Keeps q m.st.host (writeInode s1 n data offset).host := fun q => (hkeep q).trans (fun _ h => h)
    refine ⟨hs.overlay, w1, ?_, hs.last, ?_⟩
    · simp only [View.step]
      rw [w2, hsh1, hs.tree]
      simp only [Tree.step, hd]
    · intro k q w' hq
      simp only [View.step] at hq ⊢
      obtain ⟨g1, ⟨d1, g2⟩, e1, g3, g4, g5⟩ := hs.files k q w' hq
      refine ⟨g1, file_stays hwL g2 (fun h => h), ?_⟩
      by_cases hkf : k = fh
      · subst hkf
        refine ⟨e', he', hc', ?_⟩
        have hqp : q = p := by
          have := hq.symm.trans hL
          simp only [Option.some.injEq, Prod.mk.injEq] at this
          exact this.1
        rw [hh', hqp]
        exact hn
      · exact ⟨e1, by rw [hoth k hkf]; exact g3, g4, handle_kept (hkw q) g5⟩
  unfold writeCall
  rw [he]
  obtain ⟨ew, eh, ec⟩ := e
  simp only at hc hh
  subst hc
  have reopen : ∃ m' : Mount,
      (match openOverlay f.cfg m.st p true with
        | (s, .error err) => (({ m with st := s, opened := Dict.set m.opened fh ⟨true, eh, true⟩ } : Mount), Answer.error err)
        | (s, .ok n) =>
          ({ m with st := writeInode s n data offset, opened := Dict.set m.opened fh ⟨true, .fd n, false⟩ },
            .count data.length)) = (m', .count data.length) ∧ Sim f m' (v.step (.write p data offset fh)) := by
    obtain ⟨s1, n, o1, o2, o3, o4, o5, o6, o7⟩ := openOverlay_ok hs.inv hsh
    rw [o1]
    refine ⟨_, rfl, key s1 n _ o2 o3 o4 o5 o6 o7 ?_ ?_⟩
    · intro k hk
      rw [Dict.get?_set, if_neg (fun h => hk h.symm)]
    · exact ⟨⟨true, .fd n, false⟩, by rw [Dict.get?_set, if_pos rfl], rfl, rfl⟩
  cases eh with
  | fd n =>
    simp only [hs.overlay, if_true, Bool.false_eq_true, if_false]
    obtain ⟨k1, k2⟩ := inode_data hs.inv hsh hh
    exact ⟨_, rfl, key m.st n m.opened hs.inv rfl hh k1 k2 (fun q => Keeps.refl q _) (fun _ _ => rfl)
      ⟨⟨ew, .fd n, false⟩, he, rfl, rfl⟩⟩
  | object n =>
    simp only at hh
    obtain ⟨rfl, -⟩ := hh
    simp only [hs.overlay, Bool.and_self, if_true, Bool.false_eq_true, if_false]
    exact reopen
  | below b =>
    simp only at hh
    obtain ⟨rfl, -⟩ := hh
    simp only [hs.overlay, Bool.and_self, if_true, Bool.false_eq_true, if_false]
    exact reopen
  | command b => exact hh.elim

theorem sim_release (hs : Sim f m v) {fh : Nat} (hL : v.Legal f (.release fh)) :
    ∃ m', releaseCall m fh = (m', v.answer (.release fh)) ∧ Sim f m' (v.step (.release fh)) := by
  cases hf : v.file fh with
  | none => exact absurd hf hL
  | some pw =>
    obtain ⟨p, w⟩ := pw
    obtain ⟨-, -, e, he, hc, hh⟩ := hs.files fh p w hf
    have key : Sim f { m with opened := Dict.set m.opened fh { e with closed := true } } (v.step (.release fh)) := by
      refine ⟨hs.overlay, hs.inv, hs.tree, hs.last, ?_⟩
      intro k q w' hq
      simp only [View.step] at hq ⊢
      by_cases hk : k = fh
      · rw [if_pos hk] at hq; simp at hq
      · rw [if_neg hk] at hq
        obtain ⟨g1, g2, e1, g3, g4⟩ := hs.files k q w' hq
        exact ⟨g1, g2, e1, by rw [Dict.get?_set, if_neg (fun h => hk h.symm)]; exact g3, g4⟩
    unfold releaseCall
    rw [he]
    simp only
    cases hx : e.handle with
    | fd n => simp only [hc, Bool.false_eq_true, if_false]; exact ⟨_, rfl, hx ▸ key⟩
    | object n => exact ⟨_, rfl, hx ▸ key⟩
    | below b => exact ⟨_, rfl, hx ▸ key⟩
    | command b => rw [hx] at hh; exact hh.elim

theorem sim_op (hs : Sim f m v) {o : Op} (hL : v.Legal f (.op o)) (hW : Works f m (.op o)) :
    ∃ m', opCall f m o = (m', v.answer (.op o)) ∧ Sim f m' (v.step (.op o)) := by
  obtain ⟨hL, hctl, hopen⟩ := hL
  have hL' : Overlay.Legal (shown f.cfg m.st) o := by rw [hs.tree]; exact hL
  obtain ⟨s', h1, h2, h3⟩ := step_refines hs.inv o hL' hW
  have hcall : opCall f m o = ({ m with st := s' }, .done) := by
    unfold opCall
    rw [h1]
    cases o with
    | truncate p n => simp only [hctl p n rfl, hs.overlay, Bool.false_eq_true, if_false, if_true]
    | _ => simp only [hs.overlay, if_true]
  refine ⟨{ m with st := s' }, hcall, hs.overlay, h2, ?_, hs.last, ?_⟩
  · simp only [View.step]; rw [h3, hs.tree]
  · intro fh q' w hq
    simp only [View.step, Option.map_eq_some_iff] at hq ⊢
    obtain ⟨⟨q, w0⟩, hq, hqw⟩ := hq
    simp only [Prod.mk.injEq] at hqw
    obtain ⟨rfl, rfl⟩ := hqw
    obtain ⟨g1, ⟨d, g2⟩, e, g3, g4, g5⟩ := hs.files fh q w0 hq
    obtain ⟨hno, hnr⟩ := hopen fh q w0 hq
    refine ⟨g1, ?_⟩
    by_cases hren : ∃ new, o = .rename q new
    · obtain ⟨new, rfl⟩ := hren
      have hok : (Overlay.rename f.cfg m.st q new).2 = .ok () := by
        have : Overlay.rename f.cfg m.st q new = (s', .ok ()) := h1
        rw [this]
      obtain ⟨r1, r2⟩ := step_renamed hs.inv q new hL' hok
      have hst : (Overlay.rename f.cfg m.st q new).1 = s' := by
        have : Overlay.rename f.cfg m.st q new = (s', .ok ()) := h1
        rw [this]
      rw [hst] at r1 r2
      have hmv : moved (.rename q new) q = new := by simp [moved]
      rw [hmv]
      refine ⟨⟨d, ?_⟩, e, g3, g4, ?_⟩
      · simp only [Tree.step, Tree.at, if_neg hL.1, if_true, g2]
      · cases hx : e.handle with
        | fd n => rw [hx] at g5; exact r1 n g5
        | object n => rw [hx] at g5; exact ⟨g5.1, r1 n g5.2⟩
        | below b => rw [hx] at g5; exact ⟨g5.1, fun hn => absurd hn r2⟩
        | command b => rw [hx] at g5; exact g5
    · have hmv : moved o q = q := by
        cases o with
        | rename old new =>
          simp only [moved]
          rw [if_neg]
          rintro rfl
          exact hren ⟨new, rfl⟩
        | _ => rfl
      have hrep : ¬ o.replaces q := by
        cases o with
        | unlink p => rintro rfl; exact hno rfl
        | rmdir p =>
          rintro rfl
          have := hL.2.1
          rw [g2] at this
          simp at this
        | rename old new =>
          rintro (rfl | rfl)
          · exact hren ⟨new, rfl⟩
          · exact hnr old rfl
        | _ => exact fun h => h
      rw [hmv]
      have hk := step_keeps hs.inv o hL' q hrep
      rw [h1] at hk
      exact ⟨file_stays hL g2 hrep, e, g3, g4, handle_kept hk g5⟩

theorem sim_call (hs : Sim f m v) (c : Call) (hL : v.Legal f c) (hW : Works f m c) :
    ∃ m', call f m c = (m', v.answer c) ∧ Sim f m' (v.step c) := by
  cases c with
  | «open» p w => exact sim_open hs hL
  | create p mode => exact sim_create hs hL
  | read p size offset fh => exact ⟨m, by simp only [call]; rw [sim_read hs hL hW], hs⟩
  | write p data offset fh => exact sim_write hs hL
  | release fh => exact sim_release hs hL
  | op o => exact sim_op hs hL hW

/-- A history of calls with their answers. -/
inductive Session (f : Config) : Mount → View → List Call → List Answer → Mount → View → Prop where
  | nil (m : Mount) (v : View) : Session f m v [] [] m v
  | cons {m m1 m2 : Mount} {v v2 : View} {c : Call} {cs : List Call} {a : Answer} {as : List Answer} :
      v.Legal f c → Works f m c → call f m c = (m1, a) → Session f m1 (v.step c) cs as m2 v2 →
      Session f m v (c :: cs) (a :: as) m2 v2

/-- The answers of an ordinary file system. -/
def View.answers (v : View) : List Call → List Answer
  | [] => []
  | c :: cs => v.answer c :: (v.step c).answers cs

/-! ## C51, C46 -/

/-- **C51**, **C46**: in every history of opening, creating, reading, writing, releasing and the other operations, with
any number of handles open at the same time, every call answers what an ordinary file system answers: handles reach the
file they were opened for, also after it was renamed, until they are released. Missing: reading an archive file with a
handle from before its first change. -/
theorem C51_session_partial {m' : Mount} {v' : View} {cs : List Call} {as : List Answer} (hs : Sim f m v)
    (h : Session f m v cs as m' v') : as = v.answers cs ∧ Sim f m' v' := by
  induction h with
  | nil m v => exact ⟨rfl, hs⟩
  | cons hL hW hc _ ih =>
    obtain ⟨m1, h1, h2⟩ := sim_call hs _ hL hW
    rw [hc] at h1
    simp only [Prod.mk.injEq] at h1
    obtain ⟨rfl, rfl⟩ := h1
    obtain ⟨g1, g2⟩ := ih h2
    exact ⟨by rw [g1]; rfl, g2⟩

/-- A fresh mount with an overlay. -/
theorem sim_fresh (f : Config) (h : f.overlay = true) (a : Meta) (hc : Closed (lowerTree f.cfg)) :
    Sim f ⟨St.fresh a, 0, [], []⟩ ⟨lowerTree f.cfg, 0, fun _ => none⟩ :=
  ⟨h, fresh_inv a hc, fresh_shown a, rfl, fun _ _ _ h => by simp at h⟩

def demoConfig : Config := ⟨demoTar, true, fun _ => false, fun _ => false⟩
def demoMount : Mount := ⟨St.fresh (demoAttrs 0o40755), 0, [], []⟩

def demoView : View := ⟨lowerTree demoTar, 0, fun _ => none⟩

theorem demo_sim : Sim demoConfig demoMount demoView := sim_fresh demoConfig rfl _ (demo_closed _)

/-! The hypotheses are met by a session with several handles, a rename and a truncation in between. -/
def demoCalls : List Call :=
  [.open [['d'], ['f']] true, .open [['d'], ['f']] true, .write [['d'], ['f']] [9] 1 2, .create [['n']] 0o644,
    .op (.rename [['n']] [['m']]), .write [['m']] [1, 2] 0 3, .read [['m']] 9 0 3, .release 3, .write [['d'], ['f']] [8] 0 1,
    .read [['d'], ['f']] 9 0 2]

/-- Deciding a session. -/
def viewOk : View → List Call → Prop
  | _, [] => True
  | v, c :: cs => v.Legal demoConfig c ∧ viewOk (v.step c) cs

def worksOk : Mount → List Call → Prop
  | _, [] => True
  | m, c :: cs => Works demoConfig m c ∧ worksOk (call demoConfig m c).1 cs

theorem session_of (m : Mount) (v : View) (cs : List Call) (h1 : viewOk v cs) (h2 : worksOk m cs) :
    ∃ m' v', Session demoConfig m v cs (calls demoConfig m cs).2 m' v' := by
  induction cs generalizing m v with
  | nil => exact ⟨m, v, .nil m v⟩
  | cons c cs ih =>
    obtain ⟨m', v', h⟩ := ih (call demoConfig m c).1 (v.step c) h1.2 h2.2
    exact ⟨m', v', .cons h1.1 h2.1 rfl h⟩

theorem demo_viewOk : viewOk demoView demoCalls := by
  have hop : ∀ fh p w, ((((demoView.step (.open [['d'], ['f']] true)).step (.open [['d'], ['f']] true)).step
      (.write [['d'], ['f']] [9] 1 2)).step (.create [['n']] 0o644)).file fh = some (p, w) →
      Op.rename [['n']] [['m']] ≠ .unlink p ∧ ∀ old, Op.rename [['n']] [['m']] ≠ .rename old p := by
    intro fh p w h
    refine ⟨by simp, fun old ho => ?_⟩
    simp only [Op.rename.injEq] at ho
    obtain ⟨-, rfl⟩ := ho
    have h' : (if fh = 3 then some ([['n']], true) else if fh = 2 then some ([['d'], ['f']], true)
      else if fh = 1 then some ([['d'], ['f']], true) else (none : Option (Path × Bool))) = some ([['m']], w) := h
    by_cases h3 : fh = 3
    · simp [h3] at h'
    · by_cases h2 : fh = 2
      · simp [h2] at h'
      · by_cases h1 : fh = 1 <;> simp [h3, h2, h1] at h'
  exact ⟨⟨⟨_, rfl⟩, rfl⟩, ⟨⟨_, rfl⟩, rfl⟩, rfl, ⟨⟨by decide, by decide +kernel, by decide +kernel⟩, rfl⟩,
    ⟨⟨by decide, by decide, ⟨.file [], by decide +kernel, by decide⟩, by decide +kernel, by decide +kernel⟩,
      (fun _ _ h => by simp at h), hop⟩, rfl, ⟨true, rfl⟩, (by simp [View.Legal, View.step, demoView]), rfl, ⟨true, rfl⟩,
    trivial⟩

theorem works_read {m : Mount} {p : Path} {size offset fh : Nat}
    (h : (Dict.get? m.opened fh).all (fun e => match e.handle with | .below _ => false | _ => true) = true) :
    Works demoConfig m (.read p size offset fh) := by
  intro e d he hd
  rw [he] at h
  simp [hd] at h

theorem demo_worksOk : worksOk demoMount demoCalls :=
  ⟨trivial, trivial, trivial, trivial, ⟨fun _ => by decide +kernel, fun h => absurd h (by decide +kernel)⟩, trivial,
    works_read (by decide +kernel), trivial, trivial, works_read (by decide +kernel), trivial⟩

example : ∃ m' v', Session demoConfig demoMount demoView demoCalls (calls demoConfig demoMount demoCalls).2 m' v' :=
  session_of _ _ _ demo_viewOk demo_worksOk

example : (calls demoConfig demoMount demoCalls).2 =
    [.handle 1, .handle 2, .count 1, .handle 3, .done, .count 2, .bytes [1, 2], .count 3, .count 1, .bytes [8, 9, 3]] := by
  decide +kernel

/-- Every legal read gives the content of the file. -/
def C51_statement : Prop :=
  ∀ (f : Config) (m : Mount) (v : View), Sim f m v → ∀ p size offset fh, v.Legal f (.read p size offset fh) →
    readCall f m p size offset fh = .bytes (pread (content v.tree p) offset size)

/-- Two handles for a file of the archive, and a write with the second. -/
def staleCalls : List Call :=
  [.open [['d'], ['f']] false, .open [['d'], ['f']] true, .write [['d'], ['f']] [9] 0 2]

/-- C51, and C46, are violated: a handle that was opened before another one wrote to the file for the first time reads
the old content forever. -/
theorem C51_violated : ¬ C51_statement := by
  intro h
  obtain ⟨m1, c1, s1⟩ := sim_call demo_sim (.open [['d'], ['f']] false) ⟨⟨_, rfl⟩, rfl⟩ trivial
  obtain ⟨m2, c2, s2⟩ := sim_call s1 (.open [['d'], ['f']] true) ⟨⟨_, rfl⟩, rfl⟩ trivial
  obtain ⟨m3, c3, s3⟩ := sim_call s2 (.write [['d'], ['f']] [9] 0 2) rfl trivial
  have e1 : m1 = (call demoConfig demoMount (.open [['d'], ['f']] false)).1 := by rw [c1]
  subst e1
  have e2 := (congrArg Prod.fst c2).symm
  simp only at e2
  subst e2
  have e3 := (congrArg Prod.fst c3).symm
  simp only at e3
  subst e3
  have := h _ _ _ s3 [['d'], ['f']] 3 0 1 ⟨false, rfl⟩
  revert this
  decide +kernel

end Verif.Fuse
