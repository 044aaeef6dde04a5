import Verif.Compose.Automount

/-!
# C93: lazily mounted archives (core/ratarmountcore/mountsource/compositing/automount.py:246-266)

Archives can be mounted all at once, by walking over everything, or when a path through them is first asked for. Both
must show the same, whatever was asked for before.
-/

namespace Verif.Compose

open Verif.Py Verif.Index

/-- `get_recursion_depth` (automount.py:110-126). -/
def recursionDepth (cfg : AutoConfig) (st : Mounted) (path : Str) : Nat :=
  match st.get? (findMounted st.keys path).1 with
  | none => 0
  | some mi => mi.depth + match mi.source.lookup (findMounted st.keys path).2 0 with
    | some info => cfg.inner info + 1
    | none => 0

/-- The loop (automount.py:257-264) for the path made of names `cs`; `pre` is what was handled before. -/
def lazyLoop (cfg : AutoConfig) (st : Mounted) (pre : List Str) : List Str → Mounted
  | [] => st
  | c :: cs =>
    if cfg.maxDepth < recursionDepth cfg st (canonical (pre ++ [c])) then st                     -- 260-261
    else lazyLoop cfg (if st.has (canonical (pre ++ [c])) then st else tryMount cfg st (canonical (pre ++ [c]))) (pre ++ [c]) cs

/-- The mounting in `_find_mounted` (automount.py:254-264). -/
def lazyMount (cfg : AutoConfig) (st : Mounted) (cs : List Str) : Mounted :=
  if cfg.maxDepth = 0 then st else lazyLoop cfg st [] cs

/-! ## specification -/

/-- Where walking down a path leads: what serves it, the names up to its mount point, and the names after it. -/
structure Spot where
  info : MountInfo
  at_ : List Str
  rest : List Str

/-- The mount made for a file. -/
def mountOf (cfg : AutoConfig) (m : MountInfo) (full rest : List Str) : Option MountInfo :=
  match m.source.lookup (canonical rest) 0 with
  | none => none
  | some info =>
    if m.depth + (cfg.inner info + 1) ≤ cfg.maxDepth ∧ (cfg.point (canonical full)).isSome = true ∧ cfg.skip m.source info = false then
      (cfg.openFile m.source info).map
        (fun t => ⟨t, ⟨folderMode info.mode, [], info.rest, [.str (canonical full)]⟩, m.depth + (cfg.inner info + 1)⟩)
    else none

/-- One name further down: into an archive if there is one. -/
def Spot.next (cfg : AutoConfig) (s : Spot) (c : Str) : Spot :=
  match mountOf cfg s.info (s.at_ ++ (s.rest ++ [c])) (s.rest ++ [c]) with
  | some m => ⟨m, s.at_ ++ (s.rest ++ [c]), []⟩
  | none => ⟨s.info, s.at_, s.rest ++ [c]⟩

/-- Walking from the root. -/
def spot (cfg : AutoConfig) (root : MountInfo) (cs : List Str) : Spot := cs.foldl (Spot.next cfg) ⟨root, [], []⟩

/-- Mounting along the way, in any order of paths. -/
inductive Walked (cfg : AutoConfig) (root : MountInfo) : Mounted → Prop where
  | init : Walked cfg root [(['/'], root)]
  | step (st : Mounted) (cs : List Str) : (∀ n ∈ cs, IsName n) → Walked cfg root st → Walked cfg root (tryMount cfg st (canonical cs))

/-- What is assumed about the configuration and the sources: archives are mounted at their own path; what has something
below it is not an archive; the recursion depth of something is not smaller than that of what it lies in. -/
structure Regular (cfg : AutoConfig) (root : MountInfo) : Prop where
  point : ∀ cs mp, cfg.point (canonical cs) = some mp → mp = canonical cs
  folders : ∀ (s : Source) (k : Nat) (x y : List Str) (i j : FileInfo), Contained cfg.openFile root.source s k → y ≠ [] →
    (∀ n ∈ x ++ y, IsName n) → s.lookup (canonical x) 0 = some i → s.lookup (canonical (x ++ y)) 0 = some j → cfg.openFile s i = none
  depths : ∀ (s : Source) (k : Nat) (x y : List Str) (i j : FileInfo), Contained cfg.openFile root.source s k →
    (∀ n ∈ x ++ y, IsName n) → s.lookup (canonical x) 0 = some i → s.lookup (canonical (x ++ y)) 0 = some j → cfg.inner i ≤ cfg.inner j

/-! ## the specification -/

theorem spot_snoc (cfg : AutoConfig) (root : MountInfo) (cs : List Str) (c : Str) :
    spot cfg root (cs ++ [c]) = (spot cfg root cs).next cfg c := by
  unfold spot
  rw [List.foldl_append]
  rfl

theorem next_at (cfg : AutoConfig) (s : Spot) (c : Str) : (s.next cfg c).at_ ++ (s.next cfg c).rest = (s.at_ ++ s.rest) ++ [c] := by
  unfold Spot.next
  split <;> simp

theorem foldl_at (cfg : AutoConfig) : ∀ (cs : List Str) (s : Spot),
    (cs.foldl (Spot.next cfg) s).at_ ++ (cs.foldl (Spot.next cfg) s).rest = (s.at_ ++ s.rest) ++ cs := by
  intro cs
  induction cs with
  | nil => intro s; simp
  | cons c cs ih =>
    intro s
    rw [List.foldl_cons, ih, next_at]
    simp

theorem spot_at (cfg : AutoConfig) (root : MountInfo) (cs : List Str) : (spot cfg root cs).at_ ++ (spot cfg root cs).rest = cs := by
  unfold spot
  rw [foldl_at]
  simp

theorem foldl_at_prefix (cfg : AutoConfig) : ∀ (cs : List Str) (s : Spot), s.at_ <+: (cs.foldl (Spot.next cfg) s).at_ := by
  intro cs
  induction cs with
  | nil => intro s; exact List.prefix_refl _
  | cons c cs ih =>
    intro s
    rw [List.foldl_cons]
    refine List.IsPrefix.trans ?_ (ih _)
    unfold Spot.next
    split
    · exact List.prefix_append _ _
    · exact List.prefix_refl _

theorem spot_at_prefix (cfg : AutoConfig) (root : MountInfo) (cs x : List Str) : (spot cfg root cs).at_ <+: (spot cfg root (cs ++ x)).at_ := by
  have : spot cfg root (cs ++ x) = x.foldl (Spot.next cfg) (spot cfg root cs) := by unfold spot; rw [List.foldl_append]
  rw [this]
  exact foldl_at_prefix cfg x _

theorem mountOf_contained {cfg : AutoConfig} {root : MountInfo} {m m' : MountInfo} {full rest : List Str} {k : Nat}
    (hc : Contained cfg.openFile root.source m.source k) (h : mountOf cfg m full rest = some m') :
    Contained cfg.openFile root.source m'.source (k + 1) := by
  unfold mountOf at h
  cases hl : m.source.lookup (canonical rest) 0 with
  | none => rw [hl] at h; cases h
  | some info =>
    rw [hl] at h
    simp only at h
    split at h
    · cases ho : cfg.openFile m.source info with
      | none => rw [ho] at h; cases h
      | some t =>
        rw [ho] at h
        simp only [Option.map_some, Option.some.injEq] at h
        subst h
        exact .archive _ _ k _ _ hc hl ho
    · cases h

theorem foldl_contained (cfg : AutoConfig) (root : MountInfo) : ∀ (cs : List Str) (s : Spot),
    (∃ k, Contained cfg.openFile root.source s.info.source k) →
    ∃ k, Contained cfg.openFile root.source (cs.foldl (Spot.next cfg) s).info.source k := by
  intro cs
  induction cs with
  | nil => intro s h; exact h
  | cons c cs ih =>
    intro s ⟨k, h⟩
    rw [List.foldl_cons]
    apply ih
    unfold Spot.next
    split
    · next m hm => exact ⟨k + 1, mountOf_contained h hm⟩
    · exact ⟨k, h⟩

theorem spot_contained (cfg : AutoConfig) (root : MountInfo) (cs : List Str) :
    ∃ k, Contained cfg.openFile root.source (spot cfg root cs).info.source k :=
  foldl_contained cfg root cs _ ⟨0, .root⟩

/-- Walking on through things that are not archives. -/
theorem foldl_same (cfg : AutoConfig) : ∀ (b : List Str) (s : Spot),
    (∀ x, x <+: b → x ≠ [] → mountOf cfg s.info (s.at_ ++ (s.rest ++ x)) (s.rest ++ x) = none) →
    b.foldl (Spot.next cfg) s = ⟨s.info, s.at_, s.rest ++ b⟩ := by
  intro b
  induction b with
  | nil => intro s _; simp
  | cons c b ih =>
    intro s h
    rw [List.foldl_cons]
    have e : s.next cfg c = ⟨s.info, s.at_, s.rest ++ [c]⟩ := by
      unfold Spot.next
      rw [h [c] (List.prefix_append [c] b) (by simp)]
    rw [e, ih]
    · simp
    · intro x hx hne
      have := h (c :: x) (List.cons_prefix_cons.mpr ⟨rfl, hx⟩) (by simp)
      simpa using this

/-! ## what is mounted is what the specification says -/

theorem tryMount_eq (cfg : AutoConfig) (root : MountInfo) (hreg : Regular cfg root) (st : Mounted) (a b : List Str) (m : MountInfo)
    (hab : ∀ n ∈ a ++ b, IsName n) (hb : b ≠ []) (hg : st.get? (canonical a) = some m)
    (hlong : ∀ x, x <+: b → x ≠ [] → canonical (a ++ x) ∉ st.keys) :
    tryMount cfg st (canonical (a ++ b)) =
      match mountOf cfg m (a ++ b) b with
      | some m' => st.set (canonical (a ++ b)) m'
      | none => st := by
  have hf := C40_longest st.keys a b hab ((Dict.mem_keys_iff st _).mpr (by rw [hg]; rfl)) hlong
  have hno : st.has (canonical (a ++ b)) = false := by
    cases hh : st.has (canonical (a ++ b)) with
    | false => rfl
    | true => exact absurd ((Dict.mem_keys_iff st _).mpr hh) (hlong b (List.prefix_refl _) hb)
  unfold tryMount mountOf
  rw [hf]
  simp only [hg]
  cases hl : m.source.lookup (canonical b) 0 with
  | none => rfl
  | some info =>
    simp only
    by_cases hd : m.depth + (cfg.inner info + 1) ≤ cfg.maxDepth
    · rw [if_neg (by omega)]
      cases hp : cfg.point (canonical (a ++ b)) with
      | none => simp
      | some mp =>
        have := hreg.point (a ++ b) mp hp
        subst this
        simp only [hno, Bool.false_eq_true, if_false, hd, true_and, Option.isSome_some]
        cases cfg.skip m.source info with
        | true => simp
        | false =>
          simp only [Bool.false_eq_true, if_false, if_true]
          cases cfg.openFile m.source info with
          | none => rfl
          | some t => rfl
    · rw [if_pos (by omega)]
      simp [hd]

/-- Every mounted archive is the one that walking there leads to. -/
def Agrees (cfg : AutoConfig) (root : MountInfo) (st : Mounted) : Prop :=
  st.has ['/'] = true ∧ ∀ (cs : List Str) (m : MountInfo), (∀ n ∈ cs, IsName n) → st.get? (canonical cs) = some m →
    spot cfg root cs = ⟨m, cs, []⟩

theorem agrees_no_longer {cfg : AutoConfig} {root : MountInfo} {st : Mounted} (h : Agrees cfg root st) {cs a b : List Str}
    (hcs : ∀ n ∈ cs, IsName n) {s : Spot} (hs : spot cfg root cs = s) (ha : s.at_ = a) (hb : s.rest = b) :
    ∀ x, x <+: b → x ≠ [] → canonical (a ++ x) ∉ st.keys := by
  intro x hx hne hk
  obtain ⟨y, rfl⟩ := hx
  have hsum := spot_at cfg root cs
  rw [hs, ha, hb] at hsum
  obtain ⟨m, hm⟩ := Option.isSome_iff_exists.mp ((Dict.mem_keys_iff st _).mp hk)
  have h1 := h.2 (a ++ x) m (fun n hn => hcs n (by rw [← hsum, ← List.append_assoc]; exact List.mem_append_left _ hn)) hm
  have h2 := spot_at_prefix cfg root (a ++ x) y
  rw [List.append_assoc, hsum, hs, ha, h1] at h2
  have := h2.length_le
  rw [List.length_append] at this
  have : 0 < x.length := List.length_pos_iff.mpr hne
  omega

theorem agrees_tryMount (cfg : AutoConfig) (root : MountInfo) (hreg : Regular cfg root) (st : Mounted) (h : Agrees cfg root st)
    (cs : List Str) (hcs : ∀ n ∈ cs, IsName n) : Agrees cfg root (tryMount cfg st (canonical cs)) := by
  obtain ⟨a, b, rfl, hk, hlong⟩ := exists_longest st.keys ((Dict.mem_keys_iff st _).mpr h.1) cs
  obtain ⟨m, hm⟩ := Option.isSome_iff_exists.mp ((Dict.mem_keys_iff st _).mp hk)
  have ha : ∀ n ∈ a, IsName n := fun n hn => hcs n (by simp [hn])
  have hspot := h.2 a m ha hm
  by_cases hb : b = []
  · subst hb
    rw [List.append_nil]
    have : tryMount cfg st (canonical a) = st := by
      rcases tryMount_cases cfg st (canonical a) with e | ⟨_, _, mp, _, _, _, _, h4, h5, _, _⟩
      · exact e
      · have := hreg.point a mp h4
        subst this
        unfold Dict.has at h5
        rw [hm] at h5
        cases h5
    rw [this]
    exact h
  · rw [tryMount_eq cfg root hreg st a b m hcs hb hm hlong]
    cases hmo : mountOf cfg m (a ++ b) b with
    | none => exact h
    | some m' =>
      simp only
      refine ⟨?_, ?_⟩
      · unfold Dict.has
        rw [Dict.get?_set]
        split
        · rfl
        · exact h.1
      · intro cs' m'' hcs' hg
        rw [Dict.get?_set] at hg
        split at hg
        · next e =>
          cases hg
          have hcs'' := canonical_inj (a ++ b) cs' hcs hcs' e
          subst hcs''
          -- walking from a through b
          obtain ⟨k, hc⟩ := spot_contained cfg root a
          rw [hspot] at hc
          have hlook : ∃ j, m.source.lookup (canonical b) 0 = some j := by
            unfold mountOf at hmo
            cases hl : m.source.lookup (canonical b) 0 with
            | none => rw [hl] at hmo; cases hmo
            | some j => exact ⟨j, rfl⟩
          obtain ⟨j, hj⟩ := hlook
          rcases split_last b with rfl | ⟨b', c, rfl⟩
          · exact absurd rfl hb
          · have hwalk : spot cfg root (a ++ b') = ⟨m, a, b'⟩ := by
              have : spot cfg root (a ++ b') = b'.foldl (Spot.next cfg) (spot cfg root a) := by unfold spot; rw [List.foldl_append]
              rw [this, hspot, foldl_same]
              · simp
              · intro x hx hne
                obtain ⟨y, rfl⟩ := hx
                simp only [List.nil_append]
                unfold mountOf
                cases hl : m.source.lookup (canonical x) 0 with
                | none => rfl
                | some i =>
                  have := hreg.folders m.source k x (y ++ [c]) i j hc (by simp)
                    (fun n hn => hcs n (by simp at hn ⊢; rcases hn with h | h | h <;> simp [h])) hl (by
                      rw [← List.append_assoc]; exact hj)
                  simp only [this, Option.map_none]
                  split <;> rfl
            rw [← List.append_assoc, spot_snoc, hwalk]
            unfold Spot.next
            simp only
            rw [hmo]
            simp
        · exact h.2 cs' m'' hcs' hg

theorem walked_agrees (cfg : AutoConfig) (root : MountInfo) (hreg : Regular cfg root) (st : Mounted) (h : Walked cfg root st) :
    Agrees cfg root st := by
  induction h with
  | init =>
    refine ⟨rfl, ?_⟩
    intro cs m hcs hg
    simp only [Dict.get?] at hg
    split at hg
    · next e =>
      cases hg
      have := canonical_inj [] cs (by simp) hcs e
      subst this
      rfl
    · cases hg
  | step st cs hcs _ ih => exact agrees_tryMount cfg root hreg st ih cs hcs

/-! ## a path is complete when the mount point that walking leads to is mounted -/

def CompleteAt (cfg : AutoConfig) (root : MountInfo) (st : Mounted) (cs : List Str) : Prop :=
  st.get? (canonical (spot cfg root cs).at_) = some (spot cfg root cs).info

theorem complete_found {cfg : AutoConfig} {root : MountInfo} {st : Mounted} (h : Agrees cfg root st) {cs : List Str}
    (hcs : ∀ n ∈ cs, IsName n) (hc : CompleteAt cfg root st cs) :
    findMounted st.keys (canonical cs) = (canonical (spot cfg root cs).at_, canonical (spot cfg root cs).rest) := by
  have hsum := spot_at cfg root cs
  have := C40_longest st.keys (spot cfg root cs).at_ (spot cfg root cs).rest (by rw [hsum]; exact hcs)
    ((Dict.mem_keys_iff st _).mpr (by unfold CompleteAt at hc; rw [hc]; rfl)) (agrees_no_longer h hcs rfl rfl rfl)
  rw [hsum] at this
  exact this

theorem get_tryMount (cfg : AutoConfig) (st : Mounted) (p mp : Str) (m : MountInfo) (h : st.get? mp = some m) :
    (tryMount cfg st p).get? mp = some m := C91_kept cfg st p mp m h

/-- Trying the next name completes it. -/
theorem complete_next (cfg : AutoConfig) (root : MountInfo) (hreg : Regular cfg root) (st : Mounted) (h : Agrees cfg root st)
    (cs : List Str) (c : Str) (hcs : ∀ n ∈ cs ++ [c], IsName n) (hc : CompleteAt cfg root st cs) :
    CompleteAt cfg root (tryMount cfg st (canonical (cs ++ [c]))) (cs ++ [c]) := by
  have hcs' : ∀ n ∈ cs, IsName n := fun n hn => hcs n (by simp [hn])
  have hsum := spot_at cfg root cs
  by_cases hk : canonical (cs ++ [c]) ∈ st.keys
  · obtain ⟨m, hm⟩ := Option.isSome_iff_exists.mp ((Dict.mem_keys_iff st _).mp hk)
    have := h.2 _ m hcs hm
    unfold CompleteAt
    rw [this]
    exact get_tryMount _ _ _ _ _ hm
  · have hlong : ∀ x, x <+: (spot cfg root cs).rest ++ [c] → x ≠ [] → canonical ((spot cfg root cs).at_ ++ x) ∉ st.keys := by
      intro x hx hne
      rcases mem_prefix_snoc.mp hx with hx | rfl
      · exact agrees_no_longer h hcs' rfl rfl rfl x hx hne
      · rw [← List.append_assoc, hsum]; exact hk
    have heq : cs ++ [c] = (spot cfg root cs).at_ ++ ((spot cfg root cs).rest ++ [c]) := by rw [← List.append_assoc, hsum]
    have ht := tryMount_eq cfg root hreg st (spot cfg root cs).at_ ((spot cfg root cs).rest ++ [c]) (spot cfg root cs).info
      (by rw [← heq]; exact hcs) (by simp) hc hlong
    rw [← heq] at ht
    unfold CompleteAt
    rw [ht, spot_snoc]
    unfold Spot.next
    rw [← heq]
    cases mountOf cfg (spot cfg root cs).info (cs ++ [c]) ((spot cfg root cs).rest ++ [c]) with
    | none => exact hc
    | some m => show (st.set _ m).get? _ = some m; rw [Dict.get?_set, if_pos rfl]

theorem spot_depth (cfg : AutoConfig) (root : MountInfo) (hroot : root.depth = 0) (cs : List Str) :
    (spot cfg root cs).info.depth ≤ cfg.maxDepth := by
  have key : ∀ (cs : List Str) (s : Spot), s.info.depth ≤ cfg.maxDepth → (cs.foldl (Spot.next cfg) s).info.depth ≤ cfg.maxDepth := by
    intro cs
    induction cs with
    | nil => intro s h; exact h
    | cons c cs ih =>
      intro s h
      rw [List.foldl_cons]
      apply ih
      unfold Spot.next
      split
      · next m hm =>
        simp only
        unfold mountOf at hm
        cases hl : s.info.source.lookup (canonical (s.rest ++ [c])) 0 with
        | none => rw [hl] at hm; cases hm
        | some i =>
          rw [hl] at hm
          simp only at hm
          split at hm
          · next hc =>
            cases ho : cfg.openFile s.info.source i with
            | none => rw [ho] at hm; cases hm
            | some t =>
              rw [ho] at hm
              simp only [Option.map_some, Option.some.injEq] at hm
              subst hm
              exact hc.1
          · cases hm
      · exact h
  exact key cs ⟨root, [], []⟩ (by rw [hroot]; exact Nat.zero_le _)

theorem agrees_lazyLoop (cfg : AutoConfig) (root : MountInfo) (hreg : Regular cfg root) (hroot : root.depth = 0) : ∀ (cs pre : List Str) (st : Mounted),
    Agrees cfg root st → (∀ n ∈ pre ++ cs, IsName n) → CompleteAt cfg root st pre →
    Agrees cfg root (lazyLoop cfg st pre cs) ∧ CompleteAt cfg root (lazyLoop cfg st pre cs) (pre ++ cs) := by
  intro cs
  induction cs with
  | nil => intro pre st h _ hc; rw [List.append_nil]; exact ⟨h, hc⟩
  | cons c cs ih =>
    intro pre st h hn hc
    simp only [lazyLoop]
    have hn1 : ∀ n ∈ pre ++ [c], IsName n := fun n hx => hn n (by simp at hx ⊢; rcases hx with h | h <;> simp [h])
    split
    · next hdeep =>
      -- nothing below here is mounted either
      refine ⟨h, ?_⟩
      have hsum := spot_at cfg root pre
      have hpre : ∀ n ∈ pre, IsName n := fun n hx => hn1 n (by simp [hx])
      have key : CompleteAt cfg root st (pre ++ [c]) ∧
          ∃ i, (spot cfg root (pre ++ [c])).info.source.lookup (canonical (spot cfg root (pre ++ [c])).rest) 0 = some i ∧
            cfg.maxDepth < (spot cfg root (pre ++ [c])).info.depth + (cfg.inner i + 1) := by
        by_cases hk : canonical (pre ++ [c]) ∈ st.keys
        · obtain ⟨m, hm⟩ := Option.isSome_iff_exists.mp ((Dict.mem_keys_iff st _).mp hk)
          have hs := h.2 _ m hn1 hm
          have hd := spot_depth cfg root hroot (pre ++ [c])
          rw [hs] at hd
          simp only at hd
          unfold recursionDepth at hdeep
          rw [mount_point_found st.keys (pre ++ [c]) hn1 hk] at hdeep
          simp only [hm] at hdeep
          refine ⟨by unfold CompleteAt; rw [hs]; exact hm, ?_⟩
          rw [hs]
          cases hl : m.source.lookup ['/'] 0 with
          | none =>
            rw [hl] at hdeep
            simp only at hdeep
            omega
          | some i =>
            rw [hl] at hdeep
            exact ⟨i, hl, hdeep⟩
        · have hlong : ∀ x, x <+: (spot cfg root pre).rest ++ [c] → x ≠ [] → canonical ((spot cfg root pre).at_ ++ x) ∉ st.keys := by
            intro x hx hne
            rcases mem_prefix_snoc.mp hx with hx | rfl
            · exact agrees_no_longer h hpre rfl rfl rfl x hx hne
            · rw [← List.append_assoc, hsum]; exact hk
          have heq : pre ++ [c] = (spot cfg root pre).at_ ++ ((spot cfg root pre).rest ++ [c]) := by rw [← List.append_assoc, hsum]
          have hf := C40_longest st.keys (spot cfg root pre).at_ ((spot cfg root pre).rest ++ [c]) (by rw [← heq]; exact hn1)
            ((Dict.mem_keys_iff st _).mpr (by rw [show st.get? (canonical (spot cfg root pre).at_) = _ from hc]; rfl)) hlong
          rw [← heq] at hf
          have hd := spot_depth cfg root hroot pre
          unfold recursionDepth at hdeep
          rw [hf] at hdeep
          simp only [show st.get? (canonical (spot cfg root pre).at_) = _ from hc] at hdeep
          cases hl : (spot cfg root pre).info.source.lookup (canonical ((spot cfg root pre).rest ++ [c])) 0 with
          | none =>
            rw [hl] at hdeep
            simp only at hdeep
            omega
          | some i =>
            rw [hl] at hdeep
            simp only at hdeep
            have hs : spot cfg root (pre ++ [c]) =
                ⟨(spot cfg root pre).info, (spot cfg root pre).at_, (spot cfg root pre).rest ++ [c]⟩ := by
              rw [spot_snoc]
              unfold Spot.next mountOf
              rw [hl]
              simp only
              rw [if_neg (by omega)]
            rw [hs]
            exact ⟨by unfold CompleteAt; rw [hs]; exact hc, i, hl, hdeep⟩
      obtain ⟨hcomp, i, hi, hd⟩ := key
      have hspot : spot cfg root (pre ++ c :: cs) = cs.foldl (Spot.next cfg) (spot cfg root (pre ++ [c])) := by
        unfold spot
        rw [← List.foldl_append, List.append_assoc]
        rfl
      unfold CompleteAt at hcomp ⊢
      rw [hspot, foldl_same]
      · exact hcomp
      · intro x hx hne
        unfold mountOf
        cases hl : (spot cfg root (pre ++ [c])).info.source.lookup (canonical ((spot cfg root (pre ++ [c])).rest ++ x)) 0 with
        | none => rfl
        | some j =>
          obtain ⟨k, hcont⟩ := spot_contained cfg root (pre ++ [c])
          have hle := hreg.depths _ k (spot cfg root (pre ++ [c])).rest x i j hcont (by
            intro n hx'
            rcases List.mem_append.mp hx' with h' | h'
            · exact hn1 n (by rw [← spot_at cfg root (pre ++ [c])]; exact List.mem_append_right _ h')
            · exact hn n (by
                have := hx.subset h'
                simp [this])) hi hl
          simp only
          rw [if_neg (by omega)]
    · have hif : (if st.has (canonical (pre ++ [c])) then st else tryMount cfg st (canonical (pre ++ [c]))) =
          tryMount cfg st (canonical (pre ++ [c])) := by
        split
        · next hh =>
          rcases tryMount_cases cfg st (canonical (pre ++ [c])) with e | ⟨_, _, mp, _, _, _, _, h4, h5, _, _⟩
          · exact e.symm
          · have := hreg.point _ mp h4
            subst this
            rw [hh] at h5
            cases h5
        · rfl
      rw [hif]
      have := ih (pre ++ [c]) (tryMount cfg st (canonical (pre ++ [c]))) (agrees_tryMount cfg root hreg st h _ hn1) (by
        rw [List.append_assoc]; exact hn) (complete_next cfg root hreg st h pre c hn1 hc)
      rw [List.append_assoc] at this
      exact this

theorem complete_root {cfg : AutoConfig} {root : MountInfo} {st : Mounted} (h : Walked cfg root st) : st.get? ['/'] = some root := by
  induction h with
  | init => rfl
  | step st cs _ _ ih => exact C91_kept _ _ _ _ _ ih

theorem lazy_complete (cfg : AutoConfig) (root : MountInfo) (hreg : Regular cfg root) (hroot : root.depth = 0) (st : Mounted)
    (h : Walked cfg root st) (cs : List Str) (hcs : ∀ n ∈ cs, IsName n) :
    Agrees cfg root (lazyMount cfg st cs) ∧ CompleteAt cfg root (lazyMount cfg st cs) cs ∧ (lazyMount cfg st cs).get? ['/'] = some root := by
  have hw := walked_agrees cfg root hreg st h
  have hr : ∀ {st : Mounted}, st.get? ['/'] = some root → ∀ (cs pre : List Str), (lazyLoop cfg st pre cs).get? ['/'] = some root := by
    intro st h cs
    induction cs generalizing st with
    | nil => intro pre; exact h
    | cons c cs ih =>
      intro pre
      simp only [lazyLoop]
      split
      · exact h
      · apply ih
        split
        · exact h
        · exact C91_kept _ _ _ _ _ h
  unfold lazyMount
  split
  · next h0 =>
    refine ⟨hw, ?_, complete_root h⟩
    have : spot cfg root cs = ⟨root, [], cs⟩ := by
      unfold spot
      rw [foldl_same]
      · simp
      · intro x _ _
        unfold mountOf
        split
        · rfl
        · rw [if_neg (by omega)]
    unfold CompleteAt
    rw [this]
    exact complete_root h
  · have := agrees_lazyLoop cfg root hreg hroot cs [] st hw (by simpa using hcs) (complete_root h)
    rw [List.nil_append] at this
    exact ⟨this.1, this.2, hr (complete_root h) cs []⟩

/-- The answer for a path depends on what walking there leads to, and on the root. -/
theorem answer_of_complete {cfg : AutoConfig} {root : MountInfo} {st₁ st₂ : Mounted} (h₁ : Agrees cfg root st₁) (h₂ : Agrees cfg root st₂)
    (r₁ : st₁.get? ['/'] = some root) (r₂ : st₂.get? ['/'] = some root) {cs : List Str} (hcs : ∀ n ∈ cs, IsName n)
    (c₁ : CompleteAt cfg root st₁ cs) (c₂ : CompleteAt cfg root st₂ cs) (v : Int) :
    alookup st₁ (canonical cs) v = alookup st₂ (canonical cs) v ∧ aversions st₁ (canonical cs) = aversions st₂ (canonical cs) := by
  have f₁ := complete_found h₁ hcs c₁
  have f₂ := complete_found h₂ hcs c₂
  have hv : aversions st₁ (canonical cs) = aversions st₂ (canonical cs) := by
    unfold aversions
    rw [f₁, f₂]
    simp only [show st₁.get? (canonical (spot cfg root cs).at_) = _ from c₁, show st₂.get? (canonical (spot cfg root cs).at_) = _ from c₂, r₁, r₂]
  refine ⟨?_, hv⟩
  unfold alookup
  rw [hv, f₁, f₂]
  simp only [show st₁.get? (canonical (spot cfg root cs).at_) = _ from c₁, show st₂.get? (canonical (spot cfg root cs).at_) = _ from c₂, r₁, r₂]

/-- **C93**, lazily mounted: whatever was asked for before, a path is served by the source that walking down the path, into
every archive on the way, leads to. -/
theorem C93_lazy (cfg : AutoConfig) (root : MountInfo) (hreg : Regular cfg root) (hroot : root.depth = 0) (st : Mounted)
    (h : Walked cfg root st) (cs : List Str) (hcs : ∀ n ∈ cs, IsName n) :
    findMounted (lazyMount cfg st cs).keys (canonical cs) = (canonical (spot cfg root cs).at_, canonical (spot cfg root cs).rest) ∧
    (lazyMount cfg st cs).get? (canonical (spot cfg root cs).at_) = some (spot cfg root cs).info := by
  obtain ⟨h1, h2, -⟩ := lazy_complete cfg root hreg hroot st h cs hcs
  exact ⟨complete_found h1 hcs h2, h2⟩

/-- **C93**: mounting lazily and having mounted everything before give the same answers. -/
theorem C93_lazy_is_eager (cfg : AutoConfig) (root : MountInfo) (hreg : Regular cfg root) (hroot : root.depth = 0) (st eager : Mounted)
    (h : Walked cfg root st) (he : Walked cfg root eager) (cs : List Str) (hcs : ∀ n ∈ cs, IsName n)
    (hall : ∀ x, x <+: cs → tryMount cfg eager (canonical x) = eager) (v : Int) :
    alookup (lazyMount cfg st cs) (canonical cs) v = alookup eager (canonical cs) v ∧
    aversions (lazyMount cfg st cs) (canonical cs) = aversions eager (canonical cs) := by
  obtain ⟨h1, h2, h3⟩ := lazy_complete cfg root hreg hroot st h cs hcs
  have hw := walked_agrees cfg root hreg eager he
  have hce : ∀ (m : Nat) (x : List Str), x.length = m → x <+: cs → CompleteAt cfg root eager x := by
    intro m
    induction m with
    | zero =>
      intro x hx _
      rw [List.length_eq_zero_iff.mp hx]
      exact complete_root he
    | succ m ih =>
      intro x hx hp
      rcases split_last x with rfl | ⟨y, c, rfl⟩
      · simp at hx
      · have := complete_next cfg root hreg eager hw y c (fun n hn => hcs n (hp.subset hn))
          (ih y (by simpa using hx) ((List.prefix_append _ _).trans hp))
        rw [hall _ hp] at this
        exact this
  exact answer_of_complete h1 hw h3 (complete_root he) hcs h2 (hce _ cs rfl (List.prefix_refl _)) v

/-! ## a case -/

/-- Every file is an archive that contains one file `b`, in two versions. -/
def openConfig : AutoConfig := ⟨5, fun p => some p, fun _ => 0, fun _ _ => false,
  fun _ i => if isDir i.mode then none else some (pairSource ['b'])⟩

def openRoot : MountInfo := ⟨pairSource ['a'], (rootInfo [.own 0]).push (.str ['/']), 0⟩

theorem pairSource_lookup {name : Str} {x : List Str} {i : FileInfo} (hx : ∀ n ∈ x, IsName n) (hname : IsName name)
    (h : (pairSource name).lookup (canonical x) 0 = some i) : (x = [] ∧ isDir i.mode = true) ∨ x = [name] := by
  simp only [pairSource] at h
  split at h
  · next e =>
    cases h
    exact .inl ⟨canonical_inj x [] hx (by simp) e, rfl⟩
  · split at h
    · next e => exact .inr (canonical_inj x [name] hx (by simpa using hname) e)
    · cases h

theorem openConfig_regular : Regular openConfig openRoot := by
  have hc : ∀ (s : Source) (k : Nat), Contained openConfig.openFile openRoot.source s k → ∃ n, IsName n ∧ s = pairSource n := by
    intro s k h
    cases h with
    | root => exact ⟨['a'], by unfold IsName; decide, rfl⟩
    | archive s' t k p i _ _ ho =>
      simp only [openConfig] at ho
      split at ho
      · cases ho
      · cases ho
        exact ⟨['b'], by unfold IsName; decide, rfl⟩
  refine ⟨fun cs mp h => by cases h; rfl, ?_, fun _ _ _ _ _ _ _ _ _ _ => Nat.le_refl _⟩
  intro s k x y i j hs hy hxy hi hj
  obtain ⟨n, hn, rfl⟩ := hc s k hs
  rcases pairSource_lookup (fun m hm => hxy m (by simp [hm])) hn hi with ⟨rfl, hd⟩ | rfl
  · simp [openConfig, hd]
  · rcases pairSource_lookup hxy hn hj with ⟨h, -⟩ | h
    · simp at h
    · simp at h
      exact absurd h hy

/-- The hypotheses of `C93_lazy` and `C93_lazy_is_eager`: all archives down to the limit get mounted. -/
example : Regular openConfig openRoot ∧ openRoot.depth = 0 ∧ Walked openConfig openRoot [(['/'], openRoot)] ∧
    (lazyMount openConfig [(['/'], openRoot)] [['a'], ['b'], ['b']]).keys = [['/'], "/a".toList, "/a/b".toList, "/a/b/b".toList] ∧
    (tryMount openConfig (tryMount openConfig [(['/'], openRoot)] "/a".toList) "/a".toList).keys = [['/'], "/a".toList] :=
  ⟨openConfig_regular, rfl, .init, by decide +kernel, by decide +kernel⟩

end Verif.Compose
