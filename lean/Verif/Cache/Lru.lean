import Verif.Py
import Verif.Dict

/-!
# C08, C09: `LRUCache` (core/ratarmountcore/utils.py:81-146)
-/

namespace Verif.Cache

open Verif.Py

variable {K V : Type} [DecidableEq K]

/-! ## model -/

/-- `LRUCache` (utils.py:81-93). -/
structure Lru (K V : Type) where
  size : Nat
  lastUsed : List K
  data : Dict K V

/-- `__init__` (utils.py:90-93). -/
def Lru.init (size : Nat) : Lru K V := { size := size, lastUsed := [], data := [] }

/-- `_refresh` (utils.py:95-98). `list.remove` removes the first occurrence. -/
def Lru.refresh (c : Lru K V) (k : K) : Lru K V := { c with lastUsed := c.lastUsed.erase k ++ [k] }

/-- `__getitem__` (utils.py:100-102): refreshes before looking. -/
def Lru.getitem (c : Lru K V) (k : K) : Lru K V × Except PyErr V :=
  (c.refresh k, match c.data.get? k with | some v => .ok v | none => .error .keyError)

/-- `get` (utils.py:104-108) with `default=None`. -/
def Lru.get (c : Lru K V) (k : K) : Lru K V × Option V :=
  (if k ∈ c.lastUsed then c.refresh k else c, c.data.get? k)

/-- utils.py:114-115: `while len(data) > size: del data[lastUsed.pop(0)]`. -/
def evict (size : Nat) : List K → Dict K V → List K × Dict K V × Except PyErr Unit
  | [], data => ([], data, if data.length > size then .error .indexError else .ok ())
  | k :: ks, data =>
    if data.length > size then
      if data.has k then evict size ks (data.del k) else (ks, data, .error .keyError)
    else (k :: ks, data, .ok ())

/-- `__setitem__` (utils.py:110-115). -/
def Lru.setitem (c : Lru K V) (k : K) (v : V) : Lru K V × Except PyErr Unit :=
  let c := ({ c with data := c.data.set k v } : Lru K V).refresh k
  match evict c.size c.lastUsed c.data with
  | (l, d, r) => ({ c with lastUsed := l, data := d }, r)

/-- `__delitem__` (utils.py:117-120). -/
def Lru.delitem (c : Lru K V) (k : K) : Lru K V × Except PyErr Unit :=
  if c.data.has k then ({ c with data := c.data.del k, lastUsed := c.lastUsed.erase k }, .ok ())
  else (c, .error .keyError)

/-- `setdefault` (utils.py:144-146): no eviction. -/
def Lru.setdefault (c : Lru K V) (k : K) (v : V) : Lru K V × V :=
  let c := c.refresh k
  match c.data.get? k with
  | some w => (c, w)
  | none => ({ c with data := c.data.set k v }, v)

/-- `clear` (utils.py:134-136). -/
def Lru.clear (c : Lru K V) : Lru K V := { c with data := [], lastUsed := [] }

/-- Calls on the cache (utils.py:95-149). -/
inductive COp (K V : Type) where
  | getitem (k : K)
  | get (k : K)
  | set (k : K) (v : V)
  | del (k : K)
  | contains (k : K)
  | len
  | setdefault (k : K) (v : V)
  | clear
  deriving DecidableEq, Repr

/-- Their results (utils.py:95-149). -/
inductive COut (V : Type) where
  | val (v : V)
  | none
  | bool (b : Bool)
  | num (n : Nat)
  | err (e : PyErr)
  deriving DecidableEq, Repr

/-- One call (utils.py:95-149). -/
def Lru.step (c : Lru K V) : COp K V → Lru K V × COut V
  | .getitem k => match c.getitem k with
    | (c, .ok v) => (c, .val v)
    | (c, .error e) => (c, .err e)
  | .get k => match c.get k with
    | (c, some v) => (c, .val v)
    | (c, .none) => (c, .none)
  | .set k v => match c.setitem k v with
    | (c, .ok _) => (c, .none)
    | (c, .error e) => (c, .err e)
  | .del k => match c.delitem k with
    | (c, .ok _) => (c, .none)
    | (c, .error e) => (c, .err e)
  | .contains k => (c, .bool (c.data.has k))        -- 125-126
  | .len => (c, .num c.data.length)                 -- 128-129
  | .setdefault k v => ((c.setdefault k v).1, .val (c.setdefault k v).2)
  | .clear => (c.clear, .none)

/-- Calls one after the other, with their results (utils.py:95-149). -/
def Lru.run (c : Lru K V) : List (COp K V) → List (COut V)
  | [] => []
  | op :: ops => (c.step op).2 :: (c.step op).1.run ops

/-- The cache after calls (utils.py:95-149). -/
def Lru.exec (c : Lru K V) : List (COp K V) → Lru K V
  | [] => c
  | op :: ops => (c.step op).1.exec ops

/-! ## specification: a list of entries, most recently used last, cut to the capacity -/

structure Recency (K V : Type) where
  capacity : Nat
  entries : Dict K V

/-- Uses `k`: its entry goes to the end. -/
def Recency.touch (r : Recency K V) (k : K) (v : V) : Recency K V :=
  { r with entries := r.entries.del k ++ [(k, v)] }

/-- Only the last `capacity` entries stay. -/
def Recency.cut (r : Recency K V) : Recency K V :=
  { r with entries := r.entries.drop (r.entries.length - r.capacity) }

def Recency.step (r : Recency K V) : COp K V → Recency K V × COut V
  | .getitem k => match r.entries.get? k with
    | some v => (r.touch k v, .val v)
    | none => (r, .err .keyError)
  | .get k => match r.entries.get? k with
    | some v => (r.touch k v, .val v)
    | none => (r, .none)
  | .set k v => ((r.touch k v).cut, .none)
  | .del k => if r.entries.has k then ({ r with entries := r.entries.del k }, .none) else (r, .err .keyError)
  | .contains k => (r, .bool (r.entries.has k))
  | .len => (r, .num r.entries.length)
  | .setdefault k v => match r.entries.get? k with
    | some w => (r.touch k w, .val w)
    | none => ((r.touch k v).cut, .val v)
  | .clear => ({ r with entries := [] }, .none)

def Recency.run (r : Recency K V) : List (COp K V) → List (COut V)
  | [] => []
  | op :: ops => (r.step op).2 :: (r.step op).1.run ops

def Recency.exec (r : Recency K V) : List (COp K V) → Recency K V
  | [] => r
  | op :: ops => (r.step op).1.exec ops

/-- No look-up with `[]` of an absent key, no `setdefault` of an absent key on a full cache. -/
def Recency.tame (r : Recency K V) : List (COp K V) → Bool
  | [] => true
  | op :: ops =>
    (match op with
      | .getitem k => r.entries.has k
      | .setdefault k _ => r.entries.has k || decide (r.entries.length < r.capacity)
      | _ => true) && (r.step op).1.tame ops

/-- The cache and the specification hold the same entries. -/
structure Same (c : Lru K V) (r : Recency K V) : Prop where
  size : c.size = r.capacity
  order : c.lastUsed = r.entries.keys
  look : ∀ k, c.data.get? k = r.entries.get? k
  ndata : c.data.keys.Nodup
  nent : r.entries.keys.Nodup
  cap : r.entries.length ≤ r.capacity

theorem Same.perm {c : Lru K V} {r : Recency K V} (h : Same c r) : c.data.keys.Perm r.entries.keys := by
  rw [List.perm_ext_iff_of_nodup h.ndata h.nent]
  intro k; rw [Dict.mem_keys_iff, Dict.mem_keys_iff, h.look]

theorem Same.len {c : Lru K V} {r : Recency K V} (h : Same c r) : c.data.length = r.entries.length := by
  have := h.perm.length_eq; rwa [Dict.length_keys, Dict.length_keys] at this

theorem Same.has {c : Lru K V} {r : Recency K V} (h : Same c r) (k : K) : c.data.has k = r.entries.has k := by
  unfold Dict.has; rw [h.look]

theorem keys_touch (r : Recency K V) (k : K) (v : V) : (r.touch k v).entries.keys = r.entries.keys.erase k ++ [k] := by
  simp only [Recency.touch, Dict.keys, List.map_append, List.map_cons, List.map_nil]
  have := Dict.keys_del r.entries k
  simp only [Dict.keys] at this
  rw [this]

theorem nodup_touch {r : Recency K V} (h : r.entries.keys.Nodup) (k : K) (v : V) : (r.touch k v).entries.keys.Nodup := by
  rw [keys_touch]
  refine List.nodup_append.mpr ⟨h.erase k, by simp, ?_⟩
  intro a ha b hb
  simp at hb; subst hb
  rintro rfl
  exact absurd ha (List.Nodup.not_mem_erase h)

theorem get?_append (d e : Dict K V) (k : K) : Dict.get? (d ++ e) k = (d.get? k).or (Dict.get? e k) := by
  induction d with
  | nil => rfl
  | cons p d ih =>
    obtain ⟨a, b⟩ := p
    simp only [List.cons_append, Dict.get?]
    split
    · rfl
    · exact ih

theorem get?_touch {r : Recency K V} (h : r.entries.keys.Nodup) (k : K) (v : V) (k' : K) :
    (r.touch k v).entries.get? k' = if k = k' then some v else r.entries.get? k' := by
  simp only [Recency.touch]
  rw [get?_append, Dict.get?_del _ h]
  simp only [Dict.get?]
  by_cases hk : k = k'
  · simp [hk]
  · simp [hk]

theorem length_touch (r : Recency K V) (_h : r.entries.keys.Nodup) (k : K) (v : V) :
    (r.touch k v).entries.length = if r.entries.has k then r.entries.length else r.entries.length + 1 := by
  have := congrArg List.length (keys_touch r k v)
  rw [Dict.length_keys, List.length_append, List.length_erase, Dict.length_keys] at this
  rw [this]
  by_cases hk : k ∈ r.entries.keys
  · rw [if_pos hk, if_pos ((Dict.has_iff _ _).mpr hk)]
    have : 0 < r.entries.keys.length := List.length_pos_of_mem hk
    rw [Dict.length_keys] at this
    simp; omega
  · rw [if_neg hk, if_neg (fun h' => hk ((Dict.has_iff _ _).mp h'))]; simp

theorem same_touch {c : Lru K V} {r : Recency K V} (h : Same c r) (k : K) (v : V) (hv : r.entries.get? k = some v) :
    Same (c.refresh k) (r.touch k v) := by
  refine ⟨h.size, ?_, ?_, h.ndata, nodup_touch h.nent k v, ?_⟩
  · rw [keys_touch, ← h.order]; rfl
  · intro k'
    rw [get?_touch h.nent]
    simp only [Lru.refresh]
    rw [h.look]
    split
    · next hk => rw [← hk, hv]
    · rfl
  · rw [length_touch r h.nent, if_pos (by simp [Dict.has, hv])]; exact h.cap

/-- Evicting from a cache whose order list is exact. -/
theorem evict_spec (size : Nat) : ∀ (e : Dict K V) (data : Dict K V), data.keys.Nodup → e.keys.Nodup →
    (∀ k, data.get? k = Dict.get? e k) →
    ∃ d, evict size e.keys data = (Dict.keys (e.drop (e.length - size)), d, .ok ()) ∧ d.keys.Nodup ∧
      (∀ k, d.get? k = Dict.get? (e.drop (e.length - size)) k) := by
  intro e
  induction e with
  | nil =>
    intro data hn _ hl
    have : data = [] := by
      cases data with
      | nil => rfl
      | cons p d => have := hl p.1; simp [Dict.get?] at this
    subst this
    exact ⟨[], by simp [evict, Dict.keys], hn, by simp⟩
  | cons p e ih =>
    intro data hn he hl
    obtain ⟨a, b⟩ := p
    have hperm : data.keys.Perm (Dict.keys ((a, b) :: e)) := by
      rw [List.perm_ext_iff_of_nodup hn he]
      intro k; rw [Dict.mem_keys_iff, Dict.mem_keys_iff, hl]
    have hlen : data.length = e.length + 1 := by
      have := hperm.length_eq
      rw [Dict.length_keys, Dict.length_keys] at this
      simpa using this
    simp only [Dict.keys_cons, evict]
    by_cases hgt : data.length > size
    · rw [if_pos hgt, if_pos (by rw [Dict.has_iff]; exact hperm.mem_iff.mpr (by simp [Dict.keys_cons]))]
      rw [Dict.keys_cons, List.nodup_cons] at he
      have := ih (data.del a) (Dict.nodup_del _ hn _) he.2 (by
        intro k
        rw [Dict.get?_del _ hn, hl]
        simp only [Dict.get?]
        by_cases hk : a = k
        · subst hk
          rw [if_pos rfl]
          cases hg : Dict.get? e a with
          | none => rfl
          | some v => exact absurd ((Dict.mem_keys_iff e a).mpr (by simp [hg])) he.1
        · rw [if_neg hk, if_neg hk])
      have hd : ((a, b) :: e).drop (((a, b) :: e).length - size) = e.drop (e.length - size) := by
        rw [List.length_cons, show e.length + 1 - size = (e.length - size) + 1 by omega]; rfl
      rw [hd]; exact this
    · rw [if_neg hgt]
      have hd : ((a, b) :: e).drop (((a, b) :: e).length - size) = (a, b) :: e := by
        rw [List.length_cons, show e.length + 1 - size = 0 by omega]; rfl
      rw [hd]
      exact ⟨data, rfl, hn, hl⟩

theorem same_set {c : Lru K V} {r : Recency K V} (h : Same c r) (k : K) (v : V) :
    ∃ c', c.setitem k v = (c', .ok ()) ∧ Same c' (r.touch k v).cut := by
  have h1 : c.lastUsed.erase k ++ [k] = (r.touch k v).entries.keys := by rw [keys_touch, h.order]
  obtain ⟨d, hd, hdn, hdl⟩ := evict_spec c.size (r.touch k v).entries (c.data.set k v)
    (Dict.nodup_set _ h.ndata _ _) (nodup_touch h.nent k v) (by
      intro k'; rw [Dict.get?_set, get?_touch h.nent, h.look])
  unfold Lru.setitem
  simp only [Lru.refresh, h1, hd]
  refine ⟨_, rfl, ⟨h.size, ?_, ?_, hdn, ?_, ?_⟩⟩
  · simp only [Recency.cut, h.size]; rfl
  · intro k'; simp only [Recency.cut, hdl, h.size]; rfl
  · simp only [Recency.cut]
    have : (Dict.keys ((r.touch k v).entries.drop ((r.touch k v).entries.length - (r.touch k v).capacity))).Sublist
        (r.touch k v).entries.keys := by
      unfold Dict.keys; exact (List.drop_sublist _ _).map _
    exact this.nodup (nodup_touch h.nent k v)
  · simp only [Recency.cut, List.length_drop]; omega

/-- One call keeps cache and specification together and returns the same. -/
theorem same_step {c : Lru K V} {r : Recency K V} (h : Same c r) (op : COp K V) (ht : r.tame [op] = true) :
    (c.step op).2 = (r.step op).2 ∧ Same (c.step op).1 (r.step op).1 := by
  cases op with
  | getitem k =>
    simp only [Recency.tame, Bool.and_true, Dict.has] at ht
    obtain ⟨v, hv⟩ := Option.isSome_iff_exists.mp ht
    simp only [Lru.step, Lru.getitem, h.look, hv, Recency.step]
    exact ⟨by trivial, same_touch h k v hv⟩
  | get k =>
    simp only [Lru.step, Lru.get, h.look, Recency.step]
    cases hv : r.entries.get? k with
    | none =>
      have : k ∉ c.lastUsed := by rw [h.order, Dict.mem_keys_iff, hv]; simp
      simp only [if_neg this]; exact ⟨by trivial, h⟩
    | some v =>
      have : k ∈ c.lastUsed := by rw [h.order, Dict.mem_keys_iff, hv]; simp
      simp only [if_pos this]; exact ⟨by trivial, same_touch h k v hv⟩
  | set k v =>
    obtain ⟨c', hc, hs⟩ := same_set h k v
    simp only [Lru.step, hc, Recency.step]; exact ⟨by trivial, hs⟩
  | del k =>
    simp only [Lru.step, Lru.delitem, Recency.step, h.has]
    by_cases hk : r.entries.has k
    · simp only [if_pos hk]
      refine ⟨by trivial, ⟨h.size, ?_, ?_, Dict.nodup_del _ h.ndata _, Dict.nodup_del _ h.nent _, ?_⟩⟩
      · simp only [Dict.keys_del, h.order]
      · intro k'; simp only [Dict.get?_del _ h.ndata, Dict.get?_del _ h.nent, h.look]
      · have := Dict.length_keys (r.entries.del k)
        rw [Dict.keys_del] at this
        simp only
        rw [← this]
        have h2 := (List.erase_sublist (a := k) (l := r.entries.keys)).length_le
        rw [Dict.length_keys] at h2
        exact Nat.le_trans h2 h.cap
    · simp only [if_neg hk]; exact ⟨by trivial, h⟩
  | contains k => simp only [Lru.step, Recency.step, h.has]; exact ⟨by trivial, h⟩
  | len => simp only [Lru.step, Recency.step, h.len]; exact ⟨by trivial, h⟩
  | setdefault k v =>
    simp only [Lru.step, Lru.setdefault, Recency.step]
    have hl : (c.refresh k).data.get? k = r.entries.get? k := h.look k
    rw [hl]
    cases hv : r.entries.get? k with
    | some w => exact ⟨by trivial, same_touch h k w hv⟩
    | none =>
      simp only [Recency.tame, Dict.has, hv, Option.isSome_none, Bool.false_or, Bool.and_true, decide_eq_true_eq] at ht
      have hcut : (r.touch k v).cut = r.touch k v := by
        have hlen := length_touch r h.nent k v
        rw [if_neg (by simp [Dict.has, hv])] at hlen
        unfold Recency.cut
        have hcap : (r.touch k v).capacity = r.capacity := rfl
        rw [hlen, hcap, show r.entries.length + 1 - r.capacity = 0 by omega]; rfl
      rw [hcut]
      refine ⟨by trivial, ⟨h.size, ?_, ?_, Dict.nodup_set _ h.ndata _ _, nodup_touch h.nent k v, ?_⟩⟩
      · rw [keys_touch, ← h.order]; rfl
      · intro k'; rw [get?_touch h.nent]
        simp only [Lru.refresh]
        rw [Dict.get?_set, h.look]
      · have hlen := length_touch r h.nent k v
        rw [if_neg (by simp [Dict.has, hv])] at hlen
        rw [hlen]; exact ht
  | clear =>
    simp only [Lru.step, Lru.clear, Recency.step]
    exact ⟨by trivial, ⟨h.size, rfl, by simp, by simp [Dict.keys], by simp [Dict.keys], by simp⟩⟩

theorem same_run (ops : List (COp K V)) : ∀ {c : Lru K V} {r : Recency K V}, Same c r → r.tame ops = true →
    c.run ops = r.run ops ∧ Same (c.exec ops) (r.exec ops) := by
  induction ops with
  | nil => intro c r h _; exact ⟨rfl, h⟩
  | cons op ops ih =>
    intro c r h ht
    simp only [Recency.tame, Bool.and_eq_true] at ht
    obtain ⟨h1, h2⟩ := same_step h op (by simp only [Recency.tame, Bool.and_true]; exact ht.1)
    obtain ⟨h3, h4⟩ := ih h2 ht.2
    simp only [Lru.run, Recency.run, Lru.exec, Recency.exec]
    exact ⟨by rw [h1, h3], h4⟩

theorem same_init (n : Nat) : Same (Lru.init n : Lru K V) ⟨n, []⟩ :=
  ⟨rfl, rfl, fun _ => rfl, by simp [Lru.init, Dict.keys], by simp [Dict.keys], by simp⟩

/-! ## C08 -/

/-- The full statement of C08: under every history the cache answers like the recency list of the given
capacity. -/
def C08_statement (K V : Type) [DecidableEq K] : Prop :=
  ∀ (n : Nat) (ops : List (COp K V)), (Lru.init n : Lru K V).run ops = (Recency.mk n []).run ops

/-- **C08 is violated by the code**: a failed look-up leaves the key in the order list, and a later insert
raises `KeyError`. -/
theorem C08_violated : ¬ C08_statement Nat Nat := by
  intro h
  exact absurd (h 1 [.getitem 1, .set 2 0, .set 3 0]) (by decide)

/-- **C08 is violated by the code** a second time: `setdefault` never evicts, so the capacity is exceeded. -/
theorem C08_setdefault_violated : ¬ ∀ (n : Nat) (ops : List (COp Nat Nat)),
    ((Lru.init n : Lru Nat Nat).exec ops).data.length ≤ n := by
  intro h
  exact absurd (h 1 [.setdefault 1 0, .setdefault 2 0]) (by decide)

/-- **C08, provable part**: without a look-up of an absent key by `[]` and without `setdefault` of an absent
key on a full cache, every history returns what the recency list of that capacity returns, the cache holds
the same entries and never more than its capacity. Missing: the histories excluded by `tame`. -/
theorem C08_recency_partial (n : Nat) (ops : List (COp K V)) (ht : (Recency.mk n ([] : Dict K V)).tame ops = true) :
    (Lru.init n : Lru K V).run ops = (Recency.mk n []).run ops ∧
    (∀ k, ((Lru.init n : Lru K V).exec ops).data.get? k = ((Recency.mk n []).exec ops).entries.get? k) ∧
    ((Lru.init n : Lru K V).exec ops).data.length ≤ n := by
  obtain ⟨h1, h2⟩ := same_run ops (same_init n) ht
  refine ⟨h1, h2.look, ?_⟩
  have hcap : ∀ (ops : List (COp K V)) (r : Recency K V), (r.exec ops).capacity = r.capacity := by
    intro ops
    induction ops with
    | nil => intro r; rfl
    | cons op ops ih =>
      intro r
      simp only [Recency.exec, ih]
      cases op <;> simp only [Recency.step] <;> (try split) <;> rfl
  rw [h2.len]
  have := h2.cap
  rwa [hcap] at this

example : (Recency.mk 2 ([] : Dict Nat Nat)).tame
      [.set 1 10, .set 2 20, .getitem 1, .get 7, .set 3 30, .contains 2, .del 3, .setdefault 4 40, .len] = true ∧
    (Lru.init 2 : Lru Nat Nat).run
      [.set 1 10, .set 2 20, .getitem 1, .get 7, .set 3 30, .contains 2, .del 3, .setdefault 4 40, .len]
      = [.none, .none, .val 10, .none, .none, .bool false, .none, .val 40, .num 2] := by decide

/-! ## C09 -/

/-- `op` may give `k` the value `v`. -/
def assigns (op : COp K V) (k : K) (v : V) : Prop := op = .set k v ∨ op = .setdefault k v

/-- `op` takes away or replaces the value of `k`. -/
def discards (op : COp K V) (k : K) : Prop := (∃ w, op = .set k w) ∨ op = .del k ∨ op = .clear

/-- Calls that return a stored value of `k`. -/
def asks (op : COp K V) (k : K) : Prop := op = .getitem k ∨ op = .get k

theorem evict_sub (size : Nat) : ∀ (l : List K) (data : Dict K V), data.keys.Nodup →
    (evict size l data).2.1.keys.Nodup ∧
    ∀ k v, (evict size l data).2.1.get? k = some v → data.get? k = some v := by
  intro l
  induction l with
  | nil => intro data hn; exact ⟨hn, fun k v h => h⟩
  | cons a l ih =>
    intro data hn
    simp only [evict]
    by_cases h1 : data.length > size
    · rw [if_pos h1]
      by_cases h2 : data.has a = true
      · rw [if_pos h2]
        obtain ⟨h3, h4⟩ := ih (data.del a) (Dict.nodup_del _ hn _)
        refine ⟨h3, ?_⟩
        intro k v hkv
        have := h4 k v hkv
        rw [Dict.get?_del _ hn] at this
        split at this
        · cases this
        · exact this
      · rw [if_neg h2]; exact ⟨hn, fun k v h => h⟩
    · rw [if_neg h1]; exact ⟨hn, fun k v h => h⟩

/-- After any history, a held value comes from an assignment that nothing has discarded since. -/
theorem held (n : Nat) (ops : List (COp K V)) :
    ((Lru.init n : Lru K V).exec ops).data.keys.Nodup ∧
    ∀ k v, ((Lru.init n : Lru K V).exec ops).data.get? k = some v →
      ∃ pre op mid, ops = pre ++ op :: mid ∧ assigns op k v ∧ ∀ o ∈ mid, ¬ discards o k := by
  have hexec : ∀ (a b : List (COp K V)) (c : Lru K V), c.exec (a ++ b) = (c.exec a).exec b := by
    intro a
    induction a with
    | nil => intros; rfl
    | cons x a ih => intro b c; exact ih b _
  suffices H : ∀ (rops : List (COp K V)), ((Lru.init n : Lru K V).exec rops.reverse).data.keys.Nodup ∧
      ∀ k v, ((Lru.init n : Lru K V).exec rops.reverse).data.get? k = some v →
      ∃ pre op mid, rops.reverse = pre ++ op :: mid ∧ assigns op k v ∧ ∀ o ∈ mid, ¬ discards o k by
    have := H ops.reverse
    rwa [List.reverse_reverse] at this
  intro rops
  induction rops with
  | nil => exact ⟨by simp [Lru.exec, Lru.init, Dict.keys], by intro k v h; simp [Lru.exec, Lru.init] at h⟩
  | cons op rops ih =>
    rw [List.reverse_cons]
    rw [hexec]
    generalize hc : (Lru.init n : Lru K V).exec rops.reverse = c at *
    generalize hl : rops.reverse = hist at *
    obtain ⟨hn, ih⟩ := ih
    -- keeping a value
    have keep : ∀ k v, c.data.get? k = some v → ¬ discards op k →
        ∃ pre o mid, hist ++ [op] = pre ++ o :: mid ∧ assigns o k v ∧ ∀ o ∈ mid, ¬ discards o k := by
      intro k v h hd
      obtain ⟨pre, o, mid, he, ha, hm⟩ := ih k v h
      refine ⟨pre, o, mid ++ [op], by rw [he]; simp, ha, ?_⟩
      intro x hx
      rcases List.mem_append.mp hx with hx | hx
      · exact hm x hx
      · rw [List.mem_singleton] at hx; subst hx; exact hd
    have new : ∀ k v, assigns op k v →
        ∃ pre o mid, hist ++ [op] = pre ++ o :: mid ∧ assigns o k v ∧ ∀ o ∈ mid, ¬ discards o k :=
      fun k v ha => ⟨hist, op, [], rfl, ha, by simp⟩
    change (c.step op).1.data.keys.Nodup ∧ ∀ k v, (c.step op).1.data.get? k = some v → _
    cases op with
    | getitem k =>
      have : (c.step (.getitem k)).1.data = c.data := by
        simp only [Lru.step, Lru.getitem]; split <;> simp_all [Lru.refresh]
        · rename_i h; rw [← h.1]
        · rename_i h; rw [← h.1]
      rw [this]; exact ⟨hn, fun k' v h => keep k' v h (by rintro (⟨w, h⟩ | h | h) <;> cases h)⟩
    | get k =>
      have : (c.step (.get k)).1.data = c.data := by
        simp only [Lru.step, Lru.get]
        cases c.data.get? k <;> simp only <;> split <;> rfl
      rw [this]; exact ⟨hn, fun k' v h => keep k' v h (by rintro (⟨w, h⟩ | h | h) <;> cases h)⟩
    | set k v =>
      have hd : (c.step (.set k v)).1.data = (evict c.size (c.lastUsed.erase k ++ [k]) (c.data.set k v)).2.1 := by
        simp only [Lru.step, Lru.setitem, Lru.refresh]
        generalize evict c.size (c.lastUsed.erase k ++ [k]) (c.data.set k v) = x
        obtain ⟨l, d, r⟩ := x
        cases r <;> rfl
      rw [hd]
      obtain ⟨h1, h2⟩ := evict_sub c.size (c.lastUsed.erase k ++ [k]) (c.data.set k v) (Dict.nodup_set _ hn _ _)
      refine ⟨h1, ?_⟩
      intro k' v' h
      have := h2 k' v' h
      rw [Dict.get?_set] at this
      split at this
      · next hk => cases this; subst hk; exact new _ _ (.inl rfl)
      · next hk => exact keep k' v' this (by rintro (⟨w, h⟩ | h | h) <;> cases h; exact hk rfl)
    | del k =>
      simp only [Lru.step, Lru.delitem]
      by_cases hk : c.data.has k
      · simp only [if_pos hk]
        refine ⟨Dict.nodup_del _ hn _, ?_⟩
        intro k' v' h
        rw [Dict.get?_del _ hn] at h
        split at h
        · cases h
        · next hne => exact keep k' v' h (by rintro (⟨w, h⟩ | h | h) <;> cases h; exact hne rfl)
      · simp only [if_neg hk]
        refine ⟨hn, ?_⟩
        intro k' v' h
        refine keep k' v' h ?_
        rintro (⟨w, h'⟩ | h' | h') <;> cases h'
        exact hk (by simp [Dict.has, h])
    | contains k => exact ⟨hn, fun k' v h => keep k' v h (by rintro (⟨w, h⟩ | h | h) <;> cases h)⟩
    | len => exact ⟨hn, fun k' v h => keep k' v h (by rintro (⟨w, h⟩ | h | h) <;> cases h)⟩
    | setdefault k v =>
      simp only [Lru.step, Lru.setdefault, Lru.refresh]
      cases hg : c.data.get? k with
      | some w =>
        simp only
        exact ⟨hn, fun k' v h => keep k' v h (by rintro (⟨w, h⟩ | h | h) <;> cases h)⟩
      | none =>
        simp only
        refine ⟨Dict.nodup_set _ hn _ _, ?_⟩
        intro k' v' h
        rw [Dict.get?_set] at h
        split at h
        · next hk => cases h; subst hk; exact new _ _ (.inr rfl)
        · exact keep k' v' h (by rintro (⟨w, h⟩ | h | h) <;> cases h)
    | clear => exact ⟨by simp [Lru.step, Lru.clear, Dict.keys], by intro k v h; simp [Lru.step, Lru.clear] at h⟩

/-- **C09.** Whenever, after any history whatsoever, a look-up of `k` returns `v`, the history contains an
assignment of `v` to `k` after which nothing assigned, deleted or cleared `k`. `setdefault` that found a
value returns the same. -/
theorem C09_never_stale (n : Nat) (ops : List (COp K V)) (op : COp K V) (k : K) (v : V) (ha : asks op k)
    (h : (((Lru.init n : Lru K V).exec ops).step op).2 = .val v) :
    ∃ pre o mid, ops = pre ++ o :: mid ∧ assigns o k v ∧ ∀ x ∈ mid, ¬ discards x k := by
  refine (held n ops).2 k v ?_
  generalize (Lru.init n : Lru K V).exec ops = c at h
  rcases ha with rfl | rfl
  · simp only [Lru.step, Lru.getitem] at h
    cases hg : c.data.get? k with
    | none => rw [hg] at h; simp at h
    | some w => rw [hg] at h; simp at h; rw [h]
  · simp only [Lru.step, Lru.get] at h
    cases hg : c.data.get? k with
    | none => rw [hg] at h; simp at h
    | some w => rw [hg] at h; simp at h; rw [h]

/-- **C09** for `setdefault`: it returns its argument or a value that is not stale. -/
theorem C09_setdefault (n : Nat) (ops : List (COp K V)) (k : K) (d v : V)
    (h : (((Lru.init n : Lru K V).exec ops).step (.setdefault k d)).2 = .val v) :
    v = d ∨ ∃ pre o mid, ops = pre ++ o :: mid ∧ assigns o k v ∧ ∀ x ∈ mid, ¬ discards x k := by
  have hh := (held n ops).2 k v
  generalize (Lru.init n : Lru K V).exec ops = c at h hh
  simp only [Lru.step, Lru.setdefault, Lru.refresh] at h
  cases hg : c.data.get? k with
  | none => rw [hg] at h; simp at h; exact .inl h.symm
  | some w => rw [hg] at h; simp at h; subst h; exact .inr (hh hg)

example : asks (COp.get 1 : COp Nat Nat) 1 ∧
    (((Lru.init 2 : Lru Nat Nat).exec [.set 1 10, .set 2 5, .setdefault 1 9]).step (.get 1)).2 = .val 10 :=
  ⟨.inr rfl, by decide⟩

end Verif.Cache
