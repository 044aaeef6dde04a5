import Verif.Overlay.Witness

/-!
# C48: attributes with a write overlay
-/

namespace Verif.Overlay

open Verif.Py

variable {c : Cfg} {s : St}

/-! ## specification -/

/-- A call that changes attributes; `none` in `chown` is −1 (WriteOverlay.py:296-322). -/
inductive MetaOp where
  | chmod (p : Path) (mode : Nat)
  | chown (p : Path) (uid gid : Option Nat)
  | utimens (p : Path) (mtime : Int)
  deriving DecidableEq, Repr

def MetaOp.path : MetaOp → Path
  | .chmod p _ | .chown p _ _ | .utimens p _ => p

/-- The attributes after the call. -/
def MetaOp.on (a : Meta) : MetaOp → Meta
  | .chmod _ mode => { a with mode := mode }
  | .chown _ uid gid => { a with uid := uid.getD a.uid, gid := gid.getD a.gid }
  | .utimens _ mtime => { a with mtime := mtime }

/-- The attributes of `p` after a history: every call on `p` in order, beginning with the attributes at the start. -/
def attrsAfter (start : Meta) (ops : List MetaOp) (p : Path) : Meta :=
  (ops.filter (fun op => op.path = p)).foldl MetaOp.on start

/-! ## the mount -/

/-- One call (WriteOverlay.py:296-322). -/
def metaStep (c : Cfg) (s : St) : MetaOp → St × Except PyErr Unit
  | .chmod p mode => chmod c s p mode
  | .chown p uid gid => chown c s p uid gid
  | .utimens p mtime => utimens c s p mtime

/-- Calls one after the other (WriteOverlay.py:296-322). -/
def metaRun (c : Cfg) (s : St) (ops : List MetaOp) : St := ops.foldl (fun s op => (metaStep c s op).1) s

/-! ## lemmas -/

/-- The attributes the rows and nodes give for a path, whether it is visible or not. -/
def rowAttrs (c : Cfg) (s : St) (p : Path) : Option Meta := (ms c s p).map (fun i => updateInfo s p i.attrs)

theorem attrsOf_eq (h0 : ∀ p, c.subMount p = 0) (p : Path) (hx : shown c s p ≠ none) :
    attrsOf c s p = rowAttrs c s p := by
  cases hx' : shown c s p with
  | none => exact absurd hx' hx
  | some x =>
    unfold attrsOf rowAttrs view
    rw [(shown_some hx').1, h0]; rfl

/-- What a change does to attributes. -/
def Change.on (m : Change) (a : Meta) : Meta :=
  ⟨m.mode.getD a.mode, m.uid.getD a.uid, m.gid.getD a.gid, m.mtime.getD a.mtime⟩

/-- A change to the real file only touches what the change says. -/
def Follows (m : Change) (real : Meta → Meta) : Prop := ∀ a, m.on (real a) = m.on a

theorem setMetadata_attrs (hI : Inv c s) {p : Path} (m : Change) (real : Meta → Meta) (hf : Follows m real)
    (hx : shown c s p ≠ none) :
    let s' := (setMetadata c s p m real).1
    Inv c s' ∧ shown c s' = shown c s ∧ ∀ q, rowAttrs c s' q = (rowAttrs c s q).map (fun a => if p = q then m.on a else a) := by
  cases hx' : shown c s p with
  | none => exact absurd hx' hx
  | some x =>
  obtain ⟨hnd, i, hi, -⟩ := shown_some hx'
  -- the row
  have hrow : ∃ s1 r, haveRow c s p = .ok s1 ∧ s1.host = s.host ∧ Dict.get? s1.rows p = some r ∧ r.deleted = false ∧
      (∀ q, p ≠ q → Dict.get? s1.rows q = Dict.get? s.rows q) ∧
      (Dict.get? s.rows p = some r ∨ (Dict.get? s.rows p = none ∧
        r = ⟨some i.attrs.mtime, some i.attrs.mode, some i.attrs.uid, some i.attrs.gid, false⟩)) := by
    unfold haveRow
    cases hr : Dict.get? s.rows p with
    | some r =>
      refine ⟨s, r, rfl, rfl, hr, ?_, fun _ _ => rfl, .inl rfl⟩
      unfold isDeleted at hnd; rw [hr] at hnd; exact hnd
    | none =>
      unfold initRow
      rw [hi]
      refine ⟨_, _, rfl, rfl, by simp only [Dict.get?_set, if_pos], rfl, ?_, .inr ⟨rfl, rfl⟩⟩
      intro q hq
      simp only [Dict.get?_set, if_neg hq]
  obtain ⟨s1, r, h1, h2, h3, h4, h5, h6⟩ := hrow
  have hself : rowAttrs c s p
      = some ⟨r.mode.getD i.attrs.mode, r.uid.getD i.attrs.uid, r.gid.getD i.attrs.gid, r.mtime.getD i.attrs.mtime⟩ := by
    unfold rowAttrs updateInfo
    rw [hi]
    rcases h6 with h6 | ⟨h6, rfl⟩
    · rw [h6]; rfl
    · rw [h6]; rfl
  by_cases hm : m.isEmpty = true
  · -- nothing to change: only the row may be new
    have hm0 : m = {} := by unfold Change.isEmpty at hm; simpa using hm
    have hs' : (setMetadata c s p m real).1 = s1 := by
      unfold setMetadata; rw [h1]; simp only [hm, if_true]
    simp only
    rw [hs']
    have hdel : ∀ q, isDeleted s1 q = isDeleted s q := by
      intro q
      by_cases hq : p = q
      · subst hq
        rw [hnd]; unfold isDeleted; rw [h3]; exact h4
      · exact isDeleted_rows (h5 q hq)
    have hsh : shown c s1 = shown c s := by funext q; exact shown_congr (by rw [h2]) (hdel q)
    refine ⟨⟨by rw [h2]; exact hI.wf, ?_, by rw [hsh]; exact hI.closed⟩, hsh, ?_⟩
    · intro q hq; rw [hdel] at hq; rw [h2]; exact hI.hidden q hq
    · intro q
      by_cases hq : p = q
      · subst hq
        rw [hself]
        unfold rowAttrs
        have : ms c s1 p = some i := by rw [← hi]; unfold ms; rw [h2]
        rw [this]
        unfold updateInfo
        rw [h3, hm0]
        simp [Change.on]
      · have : ms c s1 q = ms c s q := by unfold ms; rw [h2]
        unfold rowAttrs
        rw [this]
        unfold updateInfo
        rw [h5 q hq]
        cases ms c s q with
        | none => rfl
        | some j => simp [hq]
  · have hm' : m.isEmpty = false := by simpa using hm
    obtain ⟨s', e1, e2, e3⟩ := setMetadata_refines hI m real hm' hx
    simp only
    rw [e1]
    refine ⟨e2, e3, ?_⟩
    have hs' : s' = (setMetadata c s p m real).1 := by rw [e1]
    unfold setMetadata at hs'
    rw [h1] at hs'
    simp only [hm', Bool.false_eq_true, if_false, h3, h2] at hs'
    intro q
    have hrows : Dict.get? s'.rows q = if p = q then some (r.apply m) else Dict.get? s.rows q := by
      rw [hs']
      simp only [Dict.get?_set]
      by_cases hq : p = q
      · rw [if_pos hq, if_pos hq]
      · rw [if_neg hq, if_neg hq, h5 q hq]
    by_cases hq : p = q
    · subst hq
      rw [hself]
      -- the node of the path itself
      have hms : ∃ j, ms c s' p = some j ∧ (j.attrs = i.attrs ∨ j.attrs = real i.attrs) := by
        rw [hs']
        unfold ms
        cases hg : Dict.get? s.host.entries p with
        | none =>
          refine ⟨i, ?_, .inl rfl⟩
          simp only
          rw [← hi]; rfl
        | some n =>
          have hin : i = s.host.inode n := by
            unfold ms Host.node at hi; rw [hg] at hi; simpa using hi.symm
          simp only
          rw [node_setInode s.host hI.wf p n _ hg, if_pos rfl]
          exact ⟨_, by simp; rfl, .inr (by rw [hin])⟩
      obtain ⟨j, hj, hja⟩ := hms
      unfold rowAttrs
      rw [hj]
      unfold updateInfo
      rw [hrows, if_pos rfl]
      have hfi := hf i.attrs
      unfold Change.on at hfi
      simp only [Meta.mk.injEq] at hfi
      obtain ⟨f1, f2, f3, f4⟩ := hfi
      simp only [Option.map_some, if_true, Option.some.injEq, Change.on, Row.apply, Meta.mk.injEq]
      have key : ∀ {α : Type} (x y : Option α) (a b : α), (a = b ∨ x.getD a = x.getD b) →
          (x.or y).getD a = x.getD (y.getD b) := by
        intro α x y a b h
        cases x with
        | some v => rfl
        | none => rcases h with h | h
                  · simp [h]
                  · simp at h; simp [h]
      rcases hja with hja | hja
      · rw [hja]
        exact ⟨key _ _ _ _ (.inl rfl), key _ _ _ _ (.inl rfl), key _ _ _ _ (.inl rfl), key _ _ _ _ (.inl rfl)⟩
      · rw [hja]
        exact ⟨key _ _ _ _ (.inr f1), key _ _ _ _ (.inr f2), key _ _ _ _ (.inr f3), key _ _ _ _ (.inr f4)⟩
    · have hms : ms c s' q = ms c s q := by
        rw [hs']
        unfold ms
        cases hg : Dict.get? s.host.entries p with
        | none => rfl
        | some n => simp only; rw [node_setInode s.host hI.wf p n _ hg, if_neg hq]
      unfold rowAttrs
      rw [hms]
      unfold updateInfo
      rw [hrows, if_neg hq]
      cases ms c s q with
      | none => rfl
      | some j => simp [hq]

theorem metaStep_attrs (hI : Inv c s) (op : MetaOp) (hx : shown c s op.path ≠ none) :
    Inv c (metaStep c s op).1 ∧ shown c (metaStep c s op).1 = shown c s ∧
      ∀ q, rowAttrs c (metaStep c s op).1 q = (rowAttrs c s q).map (fun a => if op.path = q then op.on a else a) := by
  cases op with
  | chmod p mode =>
    exact setMetadata_attrs hI { mode := some mode } (fun a => { a with mode := mode }) (fun _ => rfl) hx
  | chown p uid gid =>
    exact setMetadata_attrs hI { uid := uid, gid := gid } id (fun _ => rfl) hx
  | utimens p mtime =>
    exact setMetadata_attrs hI { mtime := some mtime } (fun a => { a with mtime := mtime }) (fun _ => rfl) hx

/-! ## C48 -/

/-- The attributes shown are the last ones set; those never set are the ones shown before. -/
def C48_statement : Prop :=
  ∀ (c : Cfg) (s : St) (ops : List MetaOp), Inv c s → (∀ op ∈ ops, shown c s op.path ≠ none) →
    ∀ p, attrsOf c (metaRun c s ops) p = (attrsOf c s p).map (fun a => attrsAfter a ops p)

theorem metaRun_attrs (hI : Inv c s) (ops : List MetaOp) (hx : ∀ op ∈ ops, shown c s op.path ≠ none) :
    Inv c (metaRun c s ops) ∧ shown c (metaRun c s ops) = shown c s ∧
      ∀ p, rowAttrs c (metaRun c s ops) p = (rowAttrs c s p).map (fun a => attrsAfter a ops p) := by
  induction ops generalizing s with
  | nil => exact ⟨hI, rfl, fun p => by simp [metaRun, attrsAfter]⟩
  | cons op ops ih =>
    obtain ⟨h1, h2, h3⟩ := metaStep_attrs hI op (hx op (by simp))
    obtain ⟨g1, g2, g3⟩ := ih h1 (by intro o ho; rw [h2]; exact hx o (by simp [ho]))
    refine ⟨g1, g2.trans h2, ?_⟩
    intro p
    rw [show metaRun c s (op :: ops) = metaRun c (metaStep c s op).1 ops from rfl, g3, h3, Option.map_map]
    congr 1
    funext a
    simp only [Function.comp_apply, attrsAfter, List.filter_cons]
    by_cases hp : op.path = p
    · simp [hp]
    · simp [hp]

/-- C48 without recursive mounting: every history of `chmod`, `chown` and `utimens` on any visible paths, after any
other history. Missing: files in archives that are mounted recursively. -/
theorem C48_history_partial (hI : Inv c s) (h0 : ∀ p, c.subMount p = 0) (ops : List MetaOp)
    (hx : ∀ op ∈ ops, shown c s op.path ≠ none) (p : Path) :
    attrsOf c (metaRun c s ops) p = (attrsOf c s p).map (fun a => attrsAfter a ops p) := by
  obtain ⟨-, h2, h3⟩ := metaRun_attrs hI ops hx
  cases hp : shown c s p with
  | none =>
    have hv : ∀ t : St, shown c t p = none → attrsOf c t p = none := by
      intro t ht
      unfold shown at ht
      unfold attrsOf
      rw [Option.map_eq_none_iff] at ht
      rw [ht]; rfl
    rw [hv _ (by rw [h2]; exact hp), hv _ hp]; rfl
  | some x =>
    rw [attrsOf_eq h0 p (by rw [h2, hp]; simp), attrsOf_eq h0 p (by rw [hp]; simp), h3]

/-- On a fresh overlay, attributes that were never set are the archive's. -/
theorem C48_archive (a : Meta) (p : Path) (i : Inode) (hp : p ≠ []) (h : Dict.get? c.lower p = some i) :
    attrsOf c (St.fresh a) p = some i.attrs := by
  unfold attrsOf view isDeleted ms updateInfo St.fresh Host.node
  simp only [Dict.get?, if_neg (fun h : [] = p => hp h.symm), Option.map_none, Option.none_or, h]
  rfl

/-- The calls succeed, apart from `chown` with −1 twice, which raises a ValueError. -/
theorem C48_result (hI : Inv c s) (op : MetaOp) (hx : shown c s op.path ≠ none)
    (hne : ∀ p, op ≠ .chown p none none) : (metaStep c s op).2 = .ok () := by
  cases op with
  | chmod p mode =>
    obtain ⟨s', h, -⟩ := setMetadata_refines hI { mode := some mode } (fun a => { a with mode := mode }) rfl hx
    show (setMetadata c s p { mode := some mode } (fun a => { a with mode := mode })).2 = _
    exact congrArg Prod.snd h
  | utimens p mtime =>
    obtain ⟨s', h, -⟩ := setMetadata_refines hI { mtime := some mtime } (fun a => { a with mtime := mtime }) rfl hx
    show (setMetadata c s p { mtime := some mtime } (fun a => { a with mtime := mtime })).2 = _
    exact congrArg Prod.snd h
  | chown p uid gid =>
    have he : Change.isEmpty { uid := uid, gid := gid } = false := by
      cases uid with
      | some u => rfl
      | none => cases gid with
        | some g => rfl
        | none => exact absurd rfl (hne p)
    obtain ⟨s', h, -⟩ := setMetadata_refines hI { uid := uid, gid := gid } id he hx
    show (setMetadata c s p { uid := uid, gid := gid } id).2 = _
    exact congrArg Prod.snd h

example : attrsOf demoTar (metaRun demoTar demoStart
    [.chmod [['x']] 0o100600, .chown [['x']] none (some 5), .utimens [['d']] 9, .chmod [['x']] 0o100640]) [['x']]
      = some ⟨0o100640, 0, 5, 7⟩ := by
  rw [C48_history_partial (c := demoTar) (demo_inv _) (fun _ => rfl) _ (by decide +kernel)]
  decide +kernel

/-- C48 for `chown` with −1 for both: nothing is changed, but it fails. -/
theorem C48_nothing (h0 : ∀ p, c.subMount p = 0) (p : Path) (hx : shown c s p ≠ none) :
    (chown c s p none none).2 = .error .valueError ∧ ∀ q, attrsOf c (chown c s p none none).1 q = attrsOf c s q := by
  cases hs : shown c s p with
  | none => exact absurd hs hx
  | some x =>
    obtain ⟨-, i, hi, -⟩ := shown_some hs
    unfold chown setMetadata haveRow
    by_cases hr : (Dict.get? s.rows p).isSome = true
    · rw [if_pos hr]
      exact ⟨rfl, fun _ => rfl⟩
    · rw [if_neg hr]
      have hrn : Dict.get? s.rows p = none := by
        cases hg : Dict.get? s.rows p with
        | none => rfl
        | some r => rw [hg] at hr; exact absurd rfl hr
      unfold initRow
      rw [hi]
      refine ⟨rfl, fun q => ?_⟩
      show attrsOf c ⟨s.host, Dict.set s.rows p _⟩ q = _
      unfold attrsOf view
      rw [h0, List.drop_zero]
      by_cases hq : p = q
      · subst hq
        have h1 : isDeleted s p = false := by unfold isDeleted; rw [hrn]
        have h2 : isDeleted ⟨s.host, Dict.set s.rows p ⟨some i.attrs.mtime, some i.attrs.mode, some i.attrs.uid, some i.attrs.gid, false⟩⟩ p
            = false := by unfold isDeleted; simp [Dict.get?_set]
        rw [h1, h2]
        have h3 : ms c ⟨s.host, Dict.set s.rows p ⟨some i.attrs.mtime, some i.attrs.mode, some i.attrs.uid, some i.attrs.gid, false⟩⟩ p
            = some i := hi
        rw [h3, hi]
        simp [updateInfo, Dict.get?_set, hrn]
      · have h2 : isDeleted ⟨s.host, Dict.set s.rows p ⟨some i.attrs.mtime, some i.attrs.mode, some i.attrs.uid, some i.attrs.gid, false⟩⟩ q
            = isDeleted s q := isDeleted_rows (by simp only; rw [Dict.get?_set, if_neg hq])
        rw [h2]
        have h3 : ∀ a, updateInfo ⟨s.host, Dict.set s.rows p ⟨some i.attrs.mtime, some i.attrs.mode, some i.attrs.uid, some i.attrs.gid, false⟩⟩ q a
            = updateInfo s q a := by
          intro a
          unfold updateInfo
          simp only [Dict.get?_set, if_neg hq]
        simp only [h3]
        rfl

example : (chown demoTar demoStart [['x']] none none).2 = .error .valueError :=
  (C48_nothing (c := demoTar) (fun _ => rfl) [['x']] (by decide +kernel)).1

/-- The archive of the witness with `/d` being an archive that is mounted at its place: `get_mount_source` reports the
mount point `/d/` for `/d/f` (automount.py:400-409). -/
def demoNested : Cfg := { demoTar with subMount := fun p => if p.take 1 = [['d']] then 1 else 0 }

/-- C48 is violated: after `chmod` of a file in a recursively mounted archive the old mode is shown. The row is stored
for the whole path, but looked up for the path below the mount point (FuseMount.py:674). -/
theorem C48_violated : ¬ C48_statement := by
  intro h
  have := h demoNested demoStart [.chmod [['d'], ['f']] 0o100600] (fresh_inv _ (demo_closed (fun _ => .ok [])))
    (by decide +kernel) [['d'], ['f']]
  revert this
  decide +kernel

/-- Writing to a file of the archive changes its mode and owner: the copy in the overlay folder is a new file, and no
row is made for it. -/
theorem C48_write_violated : ¬ ∀ (c : Cfg) (s : St) (p : Path) (offset : Nat) (data : Bytes), Inv c s →
    (∀ q, c.subMount q = 0) → (∃ d, shown c s p = some (.file d)) →
    (attrsOf c (writeFile c s p offset data).1 p).map (fun a => (a.mode, a.uid, a.gid))
      = (attrsOf c s p).map (fun a => (a.mode, a.uid, a.gid)) := by
  intro h
  have := h demoTar demoStart [['x']] 0 [1] (demo_inv _) (fun _ => rfl) ⟨[9], by decide +kernel⟩
  revert this
  decide +kernel

end Verif.Overlay
