import Verif.Cache.Lru
import Verif.PyLemmas
import Verif.FileSpec

/-!
# C10, C11: `BlockParallelReader` (core/ratarmountcore/BlockParallelReaders.py:24-246)

The process pool is modelled by its results: `pool.apply_async(decodeBlock, args)` gives a handle that
eventually holds `decodeBlock(args)`; `handle.get()` waits for it, so a handle is represented by its value.
Which handles are ready, and how many blocks the prefetcher asks for (a floating-point formula,
utils.py:181), is decided by an arbitrary environment at each call.
Not modelled: the counters (60-63), closing the file, decoding errors.
-/

namespace Verif.Cache

open Verif.Py Verif.FileSpec

/-- What is decided outside at each call: which cached blocks are ready (`AsyncResult.ready`) and
`prefetchCount` of `Prefetcher.prefetch` (utils.py:181). -/
structure Env where
  ready : Nat → Bool
  prefetchCount : Nat

/-- `Prefetcher.fetch` (utils.py:157-162). -/
def prefetcherFetch (memorySize : Nat) (lastFetched : List Nat) (value : Nat) : List Nat :=
  let l := lastFetched.erase value ++ [value]
  l.drop (l.length - memorySize)

/-- `Prefetcher.prefetch` (utils.py:164-182), a range after the last fetched block. -/
def prefetcherPrefetch (lastFetched : List Nat) (maximum prefetchCount : Nat) : List Nat :=
  match lastFetched.getLast? with
  | none => []
  | some last => if maximum = 0 then [] else List.range' (last + 1) prefetchCount

/-- The mutable part of the reader (BlockParallelReaders.py:57-61). The block boundaries and the parallelization never change and
are parameters. Boundaries are decompressed offsets, hence natural numbers. -/
structure BlockReader (α : Type) where
  offset : Int
  cache : Lru Nat (List α)
  lastFetched : List Nat
  lastUsedBlock : Nat

/-- `__init__` (BlockParallelReaders.py:29-69): `parallelization` is the number given by the caller, at least 2. -/
def BlockReader.init {α} (parallelization : Nat) : BlockReader α :=
  { offset := 0, cache := Lru.init (2 * parallelization), lastFetched := [], lastUsedBlock := 0 }

/-- `blockBoundaries[i]` for a valid `i` (BlockParallelReaders.py:101-103). -/
def bnd (bs : List Nat) (i : Nat) : Nat := bs[i]?.getD 0

/-- `_find_block` (BlockParallelReaders.py:90-97). -/
def findBlock (bs : List Nat) (offset : Int) : Option Nat :=
  let n : Int := (bisectRight (bs.map Int.ofNat) offset : Int) - 1
  if 0 ≤ n ∧ n + 1 < bs.length then some n.toNat else none

/-- `_block_size` (BlockParallelReaders.py:100-103). -/
def blockSize (bs : List Nat) (i : Nat) : Int :=
  if i + 1 ≥ bs.length then 0 else (bnd bs (i + 1) : Int) - bnd bs i

/-- BlockParallelReaders.py:180-195: the handle of a block, from the cache or newly submitted; `true` if new. -/
def BlockReader.fetch {α} (decode : Int → Int → List α) (bs : List Nat) (b : BlockReader α) (bn : Nat) :
    BlockReader α × Except PyErr (List α × Bool) :=
  if b.cache.data.has bn then
    match b.cache.getitem bn with
    | (c, .ok d) => ({ b with cache := c }, .ok (d, false))
    | (c, .error e) => ({ b with cache := c }, .error e)
  else
    let d := decode (bnd bs bn) (blockSize bs bn)
    match b.cache.setitem bn d with
    | (c, .ok _) => ({ b with cache := c }, .ok (d, true))
    | (c, .error e) => ({ b with cache := c }, .error e)

/-- The loop of `_read` (BlockParallelReaders.py:178-213). Returns the handles, the final value of `size` and of
`pendingBlocks`. -/
def BlockReader.loop {α} (decode : Int → Int → List α) (bs : List Nat) (b : BlockReader α) (bn : Nat)
    (size avail : Int) (pending : Nat) : BlockReader α × Except PyErr (List (List α) × Int × Nat) :=
  let b := { b with lastUsedBlock := bn, lastFetched := prefetcherFetch 4 b.lastFetched bn }  -- 174-175
  match b.fetch decode bs bn with
  | (b, .error e) => (b, .error e)
  | (b, .ok (d, new)) =>
    let pending := if new then pending + 1 else pending                              -- 190
    let b := { b with offset := b.offset + min avail size }                          -- 193
    if size ≤ avail then (b, .ok ([d], size, pending))                               -- 194-195
    else if _h : bn + 1 + 1 ≥ bs.length then (b, .ok ([d], size, pending))           -- 198-200
    else
      let inside := b.offset - bnd bs (bn + 1)                                       -- 207
      match BlockReader.loop decode bs b (bn + 1) (size - avail)                     -- 203
          (blockSize bs (bn + 1) - inside) pending with                              -- 206, 208
      | (b, .error e) => (b, .error e)
      | (b, .ok (ds, size, pending)) => (b, .ok (d :: ds, size, pending))
termination_by bs.length - bn
decreasing_by omega

/-- Prefetching (BlockParallelReaders.py:216-226). -/
def BlockReader.prefetch {α} (decode : Int → Int → List α) (bs : List Nat) (parallelization : Nat)
    (b : BlockReader α) (pending : Nat) : List Nat → BlockReader α × Except PyErr Unit
  | [] => (b, .ok ())
  | i :: is =>
    if blockSize bs i > 0 ∧ b.cache.data.has i = false ∧ pending < parallelization then
      match b.cache.setitem i (decode (bnd bs i) (blockSize bs i)) with
      | (c, .ok _) => BlockReader.prefetch decode bs parallelization { b with cache := c } (pending + 1) is
      | (c, .error e) => ({ b with cache := c }, .error e)
    else BlockReader.prefetch decode bs parallelization b pending is

/-- BlockParallelReaders.py:229-242: concatenates the blocks; the first is cut at the front, the last at the end. -/
def assemble {α} (first size : Int) : List (List α) → List α
  | [] => []
  | d :: ds =>
    let d := if first > 0 then sliceFrom d first else d
    let d := if ds.isEmpty then sliceTo d size else d
    d ++ assemble 0 size ds

/-- `_read` (BlockParallelReaders.py:152-248). -/
def BlockReader.read {α} (decode : Int → Int → List α) (bs : List Nat) (parallelization : Nat) (env : Env)
    (b : BlockReader α) (size : Int) : BlockReader α × Except PyErr (List α) :=
  match findBlock bs b.offset with
  | none => (b, .ok [])                                                              -- 150-152
  | some bn =>
    let first := b.offset - bnd bs bn                                                -- 155
    let avail := blockSize bs bn - first                                             -- 156-157
    if b.cache.data.has bn ∧ size ≤ avail ∧ b.lastUsedBlock = bn then                -- 162
      match b.cache.getitem bn with
      | (c, .ok d) =>
        let result := slice d first (first + size)                                   -- 164
        ({ b with cache := c, offset := b.offset + result.length }, .ok result)
      | (c, .error e) => ({ b with cache := c }, .error e)
    else
      let pending := (b.cache.data.keys.filter (fun i => !env.ready i)).length       -- 168
      match b.loop decode bs bn size avail pending with
      | (b, .error e) => (b, .error e)
      | (b, .ok (blocks, size, pending)) =>
        match b.prefetch decode bs (parallelization - 1) pending
            (prefetcherPrefetch b.lastFetched (parallelization - 1) env.prefetchCount) with
        | (b, .error e) => (b, .error e)
        | (b, .ok _) => (b, .ok (assemble first size blocks))

/-- `seek` (BlockParallelReaders.py:135-146): stores the target before checking it. -/
def BlockReader.seek {α} (bs : List Nat) (b : BlockReader α) (offset : Int) (whence : Whence) :
    BlockReader α × Except PyErr Int :=
  let new := match whence with
    | .cur => b.offset + offset
    | .end_ => (bs.getLast?.getD 0 : Int) + offset
    | .set => offset
  ({ b with offset := new }, if new < 0 then .error .valueError else .ok new)

/-- One call (BlockParallelReaders.py:135-248). -/
def BlockReader.step {α} (decode : Int → Int → List α) (bs : List Nat) (parallelization : Nat)
    (b : BlockReader α) : FileOp × Env → BlockReader α × FileOut α
  | (.read n, env) => match b.read decode bs parallelization env n with
    | (b, .ok d) => (b, .bytes d)
    | (b, .error e) => (b, .err e)
  | (.seek o w, _) => match b.seek bs o w with
    | (b, .ok n) => (b, .num n)
    | (b, .error e) => (b, .err e)
  | (.tell, _) => (b, .num b.offset)

/-- Calls one after the other, with their results (BlockParallelReaders.py:135-248). -/
def BlockReader.run {α} (decode : Int → Int → List α) (bs : List Nat) (parallelization : Nat)
    (b : BlockReader α) : List (FileOp × Env) → List (FileOut α)
  | [] => []
  | op :: ops => (b.step decode bs parallelization op).2 ::
      (b.step decode bs parallelization op).1.run decode bs parallelization ops

/-! ## specification -/

/-- The boundaries partition the content: they start at 0, do not decrease and end at its length. -/
structure Partition {α} (content : List α) (bs : List Nat) : Prop where
  sorted : bs.Pairwise (· ≤ ·)
  first : bs.head? = some 0
  last : bs.getLast? = some content.length

/-- The decoder returns the decompressed bytes at the given place. -/
def Decodes {α} (content : List α) (decode : Int → Int → List α) : Prop :=
  ∀ o n : Nat, o + n ≤ content.length → decode o n = (content.drop o).take n

/-! ## proofs -/

def Good {α} (c : Lru Nat (List α)) : Prop := ∃ r, Same c r

theorem good_getitem {α} {c : Lru Nat (List α)} (h : Good c) (k : Nat) (hk : c.data.has k = true) :
    ∃ c' v, c.getitem k = (c', .ok v) ∧ c.data.get? k = some v ∧ Good c' ∧ c'.data = c.data := by
  obtain ⟨r, hr⟩ := h
  obtain ⟨v, hv⟩ := Option.isSome_iff_exists.mp hk
  refine ⟨c.refresh k, v, by simp only [Lru.getitem, hv], hv, ⟨_, same_touch hr k v (by rw [← hr.look]; exact hv)⟩, rfl⟩

theorem good_set {α} {c : Lru Nat (List α)} (h : Good c) (k : Nat) (v : List α) :
    ∃ c', c.setitem k v = (c', .ok ()) ∧ Good c' ∧
      ∀ k' v', c'.data.get? k' = some v' → (k' = k ∧ v' = v) ∨ c.data.get? k' = some v' := by
  obtain ⟨r, hr⟩ := h
  obtain ⟨c', hc, hs⟩ := same_set hr k v
  refine ⟨c', hc, ⟨_, hs⟩, ?_⟩
  intro k' v' hk
  have hd : c'.data = (evict c.size (c.lastUsed.erase k ++ [k]) (c.data.set k v)).2.1 := by
    have := congrArg (fun x => x.1.data) hc
    simp only [Lru.setitem, Lru.refresh] at this
    rw [← this]
  rw [hd] at hk
  have := (evict_sub c.size _ _ (Dict.nodup_set _ hr.ndata k v)).2 k' v' hk
  rw [Dict.get?_set] at this
  split at this
  · next hkk => cases this; exact .inl ⟨hkk.symm, rfl⟩
  · exact .inr this

/-- Content of block `i`. -/
def block {α} (content : List α) (bs : List Nat) (i : Nat) : List α :=
  (content.drop (bnd bs i)).take (bnd bs (i + 1) - bnd bs i)

/-- What the cache holds is right. -/
def Right {α} (content : List α) (bs : List Nat) (c : Lru Nat (List α)) : Prop :=
  ∀ i d, c.data.get? i = some d → d = block content bs i

structure RInv {α} (content : List α) (bs : List Nat) (b : BlockReader α) : Prop where
  good : Good b.cache
  right : Right content bs b.cache

section
variable {α : Type} {content : List α} {bs : List Nat} {decode : Int → Int → List α}

theorem Partition.mono (h : Partition content bs) {i j : Nat} (hij : i ≤ j) (hj : j < bs.length) :
    bnd bs i ≤ bnd bs j := by
  unfold bnd
  rw [List.getElem?_eq_getElem (by omega), List.getElem?_eq_getElem hj]
  simp only [Option.getD_some]
  rcases Nat.lt_or_eq_of_le hij with h1 | h1
  · exact List.pairwise_iff_getElem.mp h.sorted i j (by omega) hj h1
  · subst h1; exact Nat.le_refl _

theorem Partition.end (h : Partition content bs) (i : Nat) (hi : i + 1 = bs.length) : bnd bs i = content.length := by
  have := h.last
  rw [List.getLast?_eq_getElem?] at this
  unfold bnd
  rw [show i = bs.length - 1 by omega, this]; rfl

theorem Partition.le_end (h : Partition content bs) {i : Nat} (hi : i < bs.length) : bnd bs i ≤ content.length := by
  rw [← h.end (bs.length - 1) (by omega)]
  exact h.mono (by omega) (by omega)

theorem decode_block (h : Partition content bs) (hd : Decodes content decode) {i : Nat} (hi : i + 1 < bs.length) :
    decode (bnd bs i) (blockSize bs i) = block content bs i := by
  have h1 := h.mono (i := i) (j := i + 1) (by omega) hi
  have h2 := h.le_end hi
  unfold blockSize
  rw [if_neg (by omega), show ((bnd bs (i + 1) : Int) - bnd bs i) = ((bnd bs (i + 1) - bnd bs i : Nat) : Int) by omega]
  rw [hd _ _ (by omega)]
  rfl

theorem fetch_spec (h : Partition content bs) (hd : Decodes content decode) {b : BlockReader α}
    (hb : RInv content bs b) {i : Nat} (hi : i + 1 < bs.length) :
    ∃ b' new, b.fetch decode bs i = (b', .ok (block content bs i, new)) ∧ RInv content bs b' ∧
      b'.offset = b.offset := by
  unfold BlockReader.fetch
  by_cases hk : b.cache.data.has i = true
  · rw [if_pos hk]
    obtain ⟨c', v, h1, h2, h3, h4⟩ := good_getitem hb.good i hk
    rw [h1, ← hb.right i v h2]
    exact ⟨_, false, rfl, ⟨h3, by intro j d hj; simp only [h4] at hj; exact hb.right j d hj⟩, rfl⟩
  · rw [if_neg hk]
    simp only [decode_block h hd hi]
    obtain ⟨c', h1, h2, h3⟩ := good_set hb.good i (block content bs i)
    rw [h1]
    refine ⟨_, true, rfl, ⟨h2, ?_⟩, rfl⟩
    intro j d hj
    rcases h3 j d hj with ⟨rfl, rfl⟩ | h4
    · rfl
    · exact hb.right j d h4

theorem block_drop {i : Nat} {o : Nat} (ho : bnd bs i ≤ o)
    (ho' : o ≤ bnd bs (i + 1)) :
    (block content bs i).drop (o - bnd bs i) = (content.drop o).take (bnd bs (i + 1) - o) := by
  unfold block
  rw [List.drop_take, List.drop_drop]
  congr 1
  · omega
  · congr 1; omega

theorem sliceTo_nat (l : List α) (n : Nat) : sliceTo l (n : Int) = l.take n := by
  simp only [sliceTo, sliceBound]
  rw [if_neg (by omega)]
  simp only [Int.toNat_natCast]
  rcases Nat.le_total n l.length with h | h
  · rw [Nat.min_eq_left h]
  · rw [Nat.min_eq_right h, List.take_of_length_le (Nat.le_refl _), List.take_of_length_le h]

theorem sliceFrom_nat (l : List α) (n : Nat) : sliceFrom l (n : Int) = l.drop n := by
  simp only [sliceFrom, sliceBound]
  rw [if_neg (by omega)]
  simp only [Int.toNat_natCast]
  rcases Nat.le_total n l.length with h | h
  · rw [Nat.min_eq_left h]
  · rw [Nat.min_eq_right h, List.drop_of_length_le (Nat.le_refl _), List.drop_of_length_le h]

theorem front (d : List α) (k : Nat) : (if (k : Int) > 0 then sliceFrom d (k : Int) else d) = d.drop k := by
  split
  · exact sliceFrom_nat d k
  · rw [show k = 0 by omega]; rfl

theorem loop_spec (h : Partition content bs) (hd : Decodes content decode) : ∀ (m : Nat) (b : BlockReader α)
    (bn o n pending : Nat), bs.length - bn = m → RInv content bs b → bn + 1 < bs.length → b.offset = o →
    bnd bs bn ≤ o → o ≤ bnd bs (bn + 1) →
    ∃ b' blocks sz pend, b.loop decode bs bn n ((bnd bs (bn + 1) - o : Nat) : Int) pending = (b', .ok (blocks, sz, pend)) ∧
      blocks ≠ [] ∧ RInv content bs b' ∧
      assemble ((o - bnd bs bn : Nat) : Int) sz blocks = (content.drop o).take n ∧
      b'.offset = ((o + ((content.drop o).take n).length : Nat) : Int) := by
  intro m
  induction m using Nat.strongRecOn with
  | _ m ih =>
    intro b bn o n pending hm hb hbn hoff hlo hhi
    unfold BlockReader.loop
    simp only
    obtain ⟨b1, new, hf, hb1, hoff1⟩ := fetch_spec h hd
      (b := { b with lastUsedBlock := bn, lastFetched := prefetcherFetch 4 b.lastFetched bn })
      ⟨hb.good, hb.right⟩ hbn
    rw [hf]
    simp only at hoff1 ⊢
    have hle := h.le_end hbn
    generalize hnp : (if new = true then pending + 1 else pending) = pending'
    have single : ∀ (k : Nat), (bnd bs (bn + 1) - o ≤ k → bnd bs (bn + 1) = content.length ∨ k = bnd bs (bn + 1) - o) →
        assemble ((o - bnd bs bn : Nat) : Int) (k : Int) [block content bs bn] = (content.drop o).take k := by
      intro k hk
      simp only [assemble, List.isEmpty_nil, if_true, List.append_nil, front]
      rw [sliceTo_nat, block_drop hlo hhi, List.take_take]
      rcases Nat.le_total k (bnd bs (bn + 1) - o) with h1 | h1
      · rw [Nat.min_eq_left h1]
      · rcases hk h1 with h2 | h2
        · rw [Nat.min_eq_right h1, List.take_of_length_le (by simp; omega), List.take_of_length_le (by simp; omega)]
        · rw [h2, Nat.min_self]
    by_cases hs : (n : Int) ≤ ((bnd bs (bn + 1) - o : Nat) : Int)
    · rw [if_pos hs]
      refine ⟨_, _, _, _, rfl, by simp, ⟨hb1.good, hb1.right⟩, single n (by intro; right; omega), ?_⟩
      simp only [hoff1, hoff, List.length_take, List.length_drop]
      omega
    · rw [if_neg hs]
      by_cases he : bn + 1 + 1 ≥ bs.length
      · rw [dif_pos he]
        have hend := h.end (bn + 1) (by omega)
        refine ⟨_, _, _, _, rfl, by simp, ⟨hb1.good, hb1.right⟩, single n (by intro; left; exact hend), ?_⟩
        simp only [hoff1, hoff, List.length_take, List.length_drop]
        omega
      · rw [dif_neg he]
        have hsz : (n : Int) - ((bnd bs (bn + 1) - o : Nat) : Int) = ((n - (bnd bs (bn + 1) - o) : Nat) : Int) := by omega
        have hmono := h.mono (i := bn + 1) (j := bn + 1 + 1) (by omega) (by omega)
        have hav : blockSize bs (bn + 1) - (b1.offset + min ((bnd bs (bn + 1) - o : Nat) : Int) (n : Int) - (bnd bs (bn + 1) : Int))
            = ((bnd bs (bn + 1 + 1) - bnd bs (bn + 1) : Nat) : Int) := by
          unfold blockSize
          rw [if_neg (by omega)]
          omega
        rw [hsz, hav]
        obtain ⟨b2, blocks, sz, pend, h1, h2, h3, h4, h5⟩ := ih (bs.length - (bn + 1)) (by omega)
          { b1 with offset := b1.offset + min ((bnd bs (bn + 1) - o : Nat) : Int) (n : Int) } (bn + 1) (bnd bs (bn + 1))
          (n - (bnd bs (bn + 1) - o)) pending' rfl ⟨hb1.good, hb1.right⟩ (by omega)
          (by simp only; omega) (Nat.le_refl _) hmono
        rw [h1]
        have hsplit : (content.drop o).take n = (content.drop o).take (bnd bs (bn + 1) - o)
            ++ (content.drop (bnd bs (bn + 1))).take (n - (bnd bs (bn + 1) - o)) := by
          have hx : n = (bnd bs (bn + 1) - o) + (n - (bnd bs (bn + 1) - o)) := by omega
          conv => lhs; rw [hx]
          rw [List.take_add, List.drop_drop, show o + (bnd bs (bn + 1) - o) = bnd bs (bn + 1) by omega]
        refine ⟨b2, _, sz, pend, rfl, by simp, h3, ?_, ?_⟩
        · simp only [assemble, front]
          rw [if_neg (by simpa using h2), block_drop hlo hhi, hsplit]
          congr 1
          simpa using h4
        · rw [h5, hsplit]
          simp only [List.length_append, List.length_take, List.length_drop]
          omega

theorem prefetch_spec (h : Partition content bs) (hd : Decodes content decode) (par : Nat) : ∀ (is : List Nat)
    (b : BlockReader α) (pending : Nat), RInv content bs b →
    ∃ b', b.prefetch decode bs par pending is = (b', .ok ()) ∧ RInv content bs b' ∧ b'.offset = b.offset := by
  intro is
  induction is with
  | nil => intro b p hb; exact ⟨b, rfl, hb, rfl⟩
  | cons i is ih =>
    intro b p hb
    unfold BlockReader.prefetch
    by_cases hc : blockSize bs i > 0 ∧ b.cache.data.has i = false ∧ p < par
    · rw [if_pos hc]
      have hi : i + 1 < bs.length := by
        have := hc.1
        unfold blockSize at this
        split at this
        · omega
        · omega
      rw [decode_block h hd hi]
      obtain ⟨c', h1, h2, h3⟩ := good_set hb.good i (block content bs i)
      rw [h1]
      obtain ⟨b', hb1, hb2, hb3⟩ := ih { b with cache := c' } (p + 1) ⟨h2, by
        intro j d hj
        rcases h3 j d hj with ⟨rfl, rfl⟩ | h4
        · rfl
        · exact hb.right j d h4⟩
      exact ⟨b', hb1, hb2, hb3⟩
    · rw [if_neg hc]; exact ih b p hb

theorem findBlock_spec (h : Partition content bs) (p : Nat) :
    (findBlock bs p = none ∧ content.length ≤ p) ∨
    ∃ i, findBlock bs p = some i ∧ i + 1 < bs.length ∧ bnd bs i ≤ p ∧ p < bnd bs (i + 1) := by
  have hs : (bs.map Int.ofNat).Pairwise (· ≤ ·) := by
    rw [List.pairwise_map]
    exact h.sorted.imp (by intro a b hab; exact Int.ofNat_le.mpr hab)
  obtain ⟨h1, h2, h3⟩ := bisectRight_spec (bs.map Int.ofNat) p hs
  rw [List.length_map] at h1
  simp only [List.length_map, List.getElem_map] at h2 h3
  have hpos : 0 < bs.length := by
    cases hb : bs with
    | nil => have := h.first; rw [hb] at this; simp at this
    | cons => simp
  have hk : 0 < bisectRight (bs.map Int.ofNat) p := by
    rcases Nat.eq_zero_or_pos (bisectRight (bs.map Int.ofNat) p) with h0 | h0
    · have := h3 0 hpos (by omega)
      have hf := h.first
      rw [List.head?_eq_getElem?, List.getElem?_eq_getElem hpos] at hf
      cases hf' : bs[0] with
      | zero => rw [hf'] at this; simp at this; omega
      | succ k => rw [hf'] at hf; simp at hf
    · exact h0
  unfold findBlock
  simp only
  generalize bisectRight (bs.map Int.ofNat) p = k at *
  by_cases hlt : k < bs.length
  · right
    rw [if_pos (by omega)]
    refine ⟨k - 1, by congr 1; omega, by omega, ?_, ?_⟩
    · have := h2 (k - 1) (by omega) (by omega)
      unfold bnd; rw [List.getElem?_eq_getElem (by omega)]
      simpa using this
    · have := h3 k hlt (by omega)
      unfold bnd; rw [show k - 1 + 1 = k by omega, List.getElem?_eq_getElem hlt]
      simpa using this
  · left
    rw [if_neg (by omega)]
    refine ⟨rfl, ?_⟩
    have := h2 (bs.length - 1) (by omega) (by omega)
    rw [← h.end (bs.length - 1) (by omega)]
    unfold bnd; rw [List.getElem?_eq_getElem (by omega)]
    simpa using this

theorem read_spec (h : Partition content bs) (hd : Decodes content decode) (par : Nat) (env : Env)
    {b : BlockReader α} (hb : RInv content bs b) (p n : Nat) (hp : b.offset = p) :
    ∃ b', b.read decode bs par env n = (b', .ok ((content.drop p).take n)) ∧ RInv content bs b' ∧
      b'.offset = ((p + ((content.drop p).take n).length : Nat) : Int) := by
  unfold BlockReader.read
  rw [hp]
  rcases findBlock_spec h p with ⟨hf, hend⟩ | ⟨i, hf, hi, hlo, hhi⟩
  · rw [hf]
    simp only
    rw [List.drop_of_length_le hend, List.take_nil]
    exact ⟨b, rfl, hb, by simpa using hp⟩
  · rw [hf]
    simp only
    have hfirst : (p : Int) - (bnd bs i : Int) = ((p - bnd bs i : Nat) : Int) := by omega
    have hav : blockSize bs i - ((p : Int) - (bnd bs i : Int)) = ((bnd bs (i + 1) - p : Nat) : Int) := by
      unfold blockSize; rw [if_neg (by omega)]; omega
    rw [hav, hfirst]
    by_cases hc : b.cache.data.has i = true ∧ (n : Int) ≤ ((bnd bs (i + 1) - p : Nat) : Int) ∧ b.lastUsedBlock = i
    · rw [if_pos hc]
      obtain ⟨c', v, h1, h2, h3, h4⟩ := good_getitem hb.good i hc.1
      rw [h1]
      simp only
      have hv := hb.right i v h2
      have hs : slice v ((p - bnd bs i : Nat) : Int) (((p - bnd bs i : Nat) : Int) + (n : Int)) = (content.drop p).take n := by
        have := slice_nonneg v (p - bnd bs i) (p - bnd bs i + n)
        rw [show (((p - bnd bs i : Nat) : Int) + (n : Int)) = ((p - bnd bs i + n : Nat) : Int) by omega, this, hv,
          block_drop hlo (by omega), List.take_take]
        congr 1; omega
      rw [hs]
      exact ⟨_, rfl, ⟨h3, by intro j d hj; simp only [h4] at hj; exact hb.right j d hj⟩, by simp⟩
    · rw [if_neg hc]
      obtain ⟨b1, blocks, sz, pend, h1, h2, h3, h4, h5⟩ := loop_spec h hd _ b i p n _ rfl hb hi hp hlo (by omega)
      rw [h1]
      simp only
      obtain ⟨b2, h6, h7, h8⟩ := prefetch_spec h hd (par - 1)
        (prefetcherPrefetch b1.lastFetched (par - 1) env.prefetchCount) b1 pend h3
      rw [h6]
      simp only
      rw [h4]
      exact ⟨b2, rfl, h7, by rw [h8, h5]⟩

end

/-- All read sizes of the history are non-negative. -/
def sizesGiven (ops : List FileOp) : Bool :=
  ops.all fun op => match op with | .read n => decide (0 ≤ n) | _ => true

/-- **C10.** For every partition of the decompressed content into blocks, every parallelization, every
behaviour of the worker pool and the prefetcher, and every history of sized reads and accepted seeks, the
reader behaves like an in-memory file that holds the content. -/
theorem C10_block_reads {α} (content : List α) (bs : List Nat) (decode : Int → Int → List α)
    (hp : Partition content bs) (hd : Decodes content decode) (parallelization : Nat)
    (ops : List (FileOp × Env)) (hs : sizesGiven (ops.map (·.1)) = true)
    (hacc : (BytesIO.mk content 0).accepts (ops.map (·.1)) = true) :
    (BlockReader.init parallelization : BlockReader α).run decode bs parallelization ops
      = (BytesIO.mk content 0).run (ops.map (·.1)) := by
  have key : ∀ (ops : List (FileOp × Env)) (b : BlockReader α) (p : Nat), RInv content bs b → b.offset = p →
      sizesGiven (ops.map (·.1)) = true → (BytesIO.mk content p).accepts (ops.map (·.1)) = true →
      b.run decode bs parallelization ops = (BytesIO.mk content p).run (ops.map (·.1)) := by
    intro ops
    induction ops with
    | nil => intros; rfl
    | cons op ops ih =>
      intro b p hb hoff hs hacc
      obtain ⟨op, env⟩ := op
      simp only [sizesGiven, List.map_cons, List.all_cons, Bool.and_eq_true] at hs
      simp only [List.map_cons, BytesIO.accepts, Bool.and_eq_true] at hacc
      cases op with
      | read n =>
        have hn : 0 ≤ n := by simpa using hs.1
        obtain ⟨n, rfl⟩ := Int.eq_ofNat_of_zero_le hn
        obtain ⟨b', h1, h2, h3⟩ := read_spec hp hd parallelization env hb p n hoff
        have hst : b.step decode bs parallelization (.read n, env) = (b', .bytes ((content.drop p).take n)) := by
          simp only [BlockReader.step, h1]
        have hsp : (BytesIO.mk content p).step (.read n)
            = (BytesIO.mk content (p + ((content.drop p).take n).length), .bytes ((content.drop p).take n)) := by
          simp only [BytesIO.step]; rw [if_neg (by omega)]; simp
        simp only [BlockReader.run, List.map_cons, BytesIO.run, hst, hsp]
        congr 1
        rw [hsp] at hacc
        exact ih b' _ h2 h3 hs.2 hacc.2
      | seek o w =>
        have hnn : 0 ≤ (BytesIO.mk content p).target o w := by simpa using hacc.1
        have htot : ((bs.getLast?.getD 0 : Nat) : Int) = content.length := by rw [hp.last]; rfl
        have hsk : b.seek bs o w = ({ b with offset := (BytesIO.mk content p).target o w },
            .ok ((BytesIO.mk content p).target o w)) := by
          cases w <;> simp only [BlockReader.seek, BytesIO.target, hoff, htot] at hnn ⊢ <;> rw [if_neg (by omega)]
        have hst : b.step decode bs parallelization (.seek o w, env)
            = ({ b with offset := (BytesIO.mk content p).target o w }, .num ((BytesIO.mk content p).target o w)) := by
          simp only [BlockReader.step, hsk]
        have hsp : (BytesIO.mk content p).step (.seek o w)
            = (BytesIO.mk content ((BytesIO.mk content p).target o w).toNat, .num ((BytesIO.mk content p).target o w)) := by
          simp only [BytesIO.step]; rw [if_neg (by omega)]
        simp only [BlockReader.run, List.map_cons, BytesIO.run, hst, hsp]
        congr 1
        rw [hsp] at hacc
        exact ih _ _ ⟨hb.good, hb.right⟩ (by simp only; omega) hs.2 hacc.2
      | tell =>
        simp only [BlockReader.run, List.map_cons, BytesIO.run, BlockReader.step, BytesIO.step, hoff]
        congr 1
        exact ih b p hb hoff hs.2 hacc.2
  exact key ops _ 0 ⟨⟨_, same_init _⟩, by intro i d hi; simp [BlockReader.init, Lru.init] at hi⟩ rfl hs hacc

/-- A decoder for `content`. -/
def sliceDecoder {α} (content : List α) (o n : Int) : List α := (content.drop o.toNat).take n.toNat

example : Partition [1, 2, 3, 4, 5] [0, 2, 2, 5] ∧ Decodes [1, 2, 3, 4, 5] (sliceDecoder [1, 2, 3, 4, 5]) ∧
    sizesGiven [.read 1, .read 3, .seek (-2) .end_, .read 9] = true ∧
    (BytesIO.mk [1, 2, 3, 4, 5] 0).accepts [.read 1, .read 3, .seek (-2) .end_, .read 9] = true ∧
    (BlockReader.init 2 : BlockReader Nat).run (sliceDecoder [1, 2, 3, 4, 5]) [0, 2, 2, 5] 2
      [(.read 1, ⟨fun _ => false, 1⟩), (.read 3, ⟨fun _ => true, 2⟩), (.seek (-2) .end_, ⟨fun _ => true, 0⟩),
        (.read 9, ⟨fun _ => true, 0⟩)] = [.bytes [1], .bytes [2, 3, 4], .num 3, .bytes [4, 5]] := by
  refine ⟨⟨by decide, by decide, by decide⟩, fun o n _ => by simp [sliceDecoder], by decide, by decide, by decide +kernel⟩

/-! ## C11 -/

/-- The full statement of C11: `read(-1)` returns everything that is left. -/
def C11_statement (α : Type) : Prop :=
  ∀ (content : List α) (bs : List Nat) (decode : Int → Int → List α), Partition content bs → Decodes content decode →
    ∀ (parallelization p : Nat) (env : Env),
      ((BlockReader.init parallelization : BlockReader α).run decode bs parallelization
        [(.seek p .set, env), (.read (-1), env), (.tell, env)])
      = [.num p, .bytes (content.drop p), .num (max p content.length)]

/-- **C11 is violated by the code**: `read()` drops the last byte of the block and moves the position
backwards. -/
theorem C11_violated : ¬ C11_statement Nat := by
  intro h
  have := h [1, 2, 3] [0, 3] (sliceDecoder [1, 2, 3]) ⟨by decide, by decide, by decide⟩
    (fun o n _ => by simp [sliceDecoder]) 2 0 ⟨fun _ => true, 0⟩
  exact absurd this (by decide +kernel)

/-- **C11, provable part**: at or after the end nothing is returned and the position stays, for every
negative size. Missing: all positions before the end. -/
theorem C11_at_end_partial {α} (content : List α) (bs : List Nat) (decode : Int → Int → List α)
    (hp : Partition content bs) (parallelization : Nat) (env : Env) (b : BlockReader α) (p : Nat)
    (ho : b.offset = p) (hend : content.length ≤ p) (n : Int) :
    b.read decode bs parallelization env n = (b, .ok []) := by
  unfold BlockReader.read
  rw [ho]
  rcases findBlock_spec hp p with ⟨hf, -⟩ | ⟨i, hf, hi, hlo, hhi⟩
  · rw [hf]
  · have := hp.le_end hi; omega

example : Partition [1, 2, 3] [0, 1, 3] ∧ [1, 2, 3].length ≤ 3 := ⟨⟨by decide, by decide, by decide⟩, by decide⟩

end Verif.Cache
