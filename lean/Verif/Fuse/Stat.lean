import Verif.Compose.Statfs
import Verif.Py

/-!
# C111, C112, C113: file system statistics and attributes through the mount (ratarmount/FuseMount.py:713-736, 891-912)
-/

namespace Verif.Fuse.Stat

open Verif.Py Verif.Compose

/-- `MINIMUM_BLOCK_SIZE` (FuseMount.py:112). -/
def minimumBlockSize : Int := 256 * 1024

/-- One round of the loop at FuseMount.py:910-911. -/
def enlarge (result : Dict Str Int) (key : Str) : Dict Str Int :=
  result.set key (max ((result.get? key).getD 0) minimumBlockSize)

/-- The statistics of the overlay with the block sizes of the mount source (FuseMount.py:898-903). -/
def merged (overlay source : Dict Str Int) : Dict Str Int :=
  (source.filter (fun kv : Str × Int => kv.1 ∈ maxKeys)).foldl (fun r kv => r.set kv.1 kv.2) overlay

/-- `result` before the loop (FuseMount.py:898-905): what line 903 computed is replaced in line 905. -/
def beforeLoop (overlay : Option (Dict Str Int)) (source : Dict Str Int) : Dict Str Int :=
  let _result := overlay.map (fun o => merged o source)
  source

/-- `FuseMount.statfs` (FuseMount.py:891-912). `overlay` is what the write overlay reports, if there is one. -/
def statfs (overlay : Option (Dict Str Int)) (source : Dict Str Int) : Dict Str Int :=
  ["f_bsize".toList, "f_frsize".toList].foldl enlarge (beforeLoop overlay source)

theorem get?_statfs (overlay : Option (Dict Str Int)) (source : Dict Str Int) (k : Str) :
    (statfs overlay source).get? k =
      if k ∈ maxKeys then some (max ((source.get? k).getD 0) (256 * 1024)) else source.get? k := by
  unfold statfs
  simp only [List.foldl_cons, List.foldl_nil]
  unfold enlarge beforeLoop minimumBlockSize
  simp only
  by_cases h1 : "f_frsize".toList = k
  · subst h1
    rw [Dict.get?_set, if_pos rfl, Dict.get?_set, if_neg (by decide), if_pos (by decide)]
  · rw [Dict.get?_set, if_neg h1]
    by_cases h2 : "f_bsize".toList = k
    · subst h2
      rw [Dict.get?_set, if_pos rfl, if_pos (by decide)]
    · rw [Dict.get?_set, if_neg h2, if_neg]
      intro h
      simp only [maxKeys, List.mem_cons, List.not_mem_nil, or_false] at h
      rcases h with h | h
      · exact h2 h.symm
      · exact h1 h.symm

/-! ## C111: free space -/

/-- C111 as claimed: with a write overlay, the free blocks and files are those of the file system of the overlay. -/
def C111_statement : Prop :=
  ∀ (overlay source : Dict Str Int) (k : Str),
    k ∈ ["f_bfree".toList, "f_bavail".toList, "f_ffree".toList, "f_favail".toList] →
    ∀ v, overlay.get? k = some v → (statfs (some overlay) source).get? k = some v

/-- A file system with 1000 free blocks. -/
def demoOverlay : Dict Str Int := [("f_bsize".toList, 4096), ("f_bfree".toList, 1000)]
/-- What a TAR reports (tar.py:1114-1122). -/
def demoTar : Dict Str Int := [("f_bsize".toList, 512), ("f_frsize".toList, 512), ("f_bfree".toList, 0)]

/-- C111 is violated: a TAR has no free blocks, and this is what is reported with any overlay. -/
theorem C111_violated : ¬ C111_statement := by
  intro h
  have := h demoOverlay demoTar "f_bfree".toList (by simp) 1000 (by decide)
  exact absurd this (by decide)

/-- What is reported instead: the overlay has no effect at all. -/
theorem C111_ignored (overlay : Option (Dict Str Int)) (source : Dict Str Int) : statfs overlay source = statfs none source := rfl

/-- C111 holds if the mount source already reports the values of the overlay. Missing: all other cases. -/
theorem C111_same_partial (overlay source : Dict Str Int) (k : Str) (hk : k ∉ maxKeys) (h : source.get? k = overlay.get? k) :
    (statfs (some overlay) source).get? k = overlay.get? k := by
  rw [get?_statfs, if_neg hk, h]

example : "f_bfree".toList ∉ maxKeys ∧ demoOverlay.get? "f_bfree".toList = some 1000 := by decide

/-! ## C112: total size -/

/-- The total size of a file system in bytes: blocks of the size of a fragment (POSIX `statvfs`). -/
def total (d : Dict Str Int) : Option Int :=
  match d.get? "f_blocks".toList, d.get? "f_frsize".toList with
  | some b, some f => some (b * f)
  | _, _ => none

/-- C112 as claimed: the total size shown for the mount is the one its source reports. -/
def C112_statement : Prop :=
  ∀ (overlay : Option (Dict Str Int)) (source : Dict Str Int) (t : Int), total source = some t →
    total (statfs overlay source) = some t

theorem total_statfs (overlay : Option (Dict Str Int)) (source : Dict Str Int) (b f : Int)
    (hb : source.get? "f_blocks".toList = some b) (hf : source.get? "f_frsize".toList = some f) :
    total (statfs overlay source) = some (b * max f (256 * 1024)) := by
  have h1 := get?_statfs overlay source "f_blocks".toList
  have h2 := get?_statfs overlay source "f_frsize".toList
  rw [if_neg (by decide), hb] at h1
  rw [if_pos (by decide), hf] at h2
  unfold total
  rw [h1, h2]
  rfl

/-- C112 is violated: a folder on a file system with fragments of 4 KiB is shown 64 times as large as it is. -/
theorem C112_violated : ¬ C112_statement := by
  intro h
  have := h none [("f_frsize".toList, 4096), ("f_blocks".toList, 10)] 40960 (by decide)
  exact absurd this (by decide)

/-- C112 exactly: the total size is right if and only if there are no blocks or the fragments are at least as large as the
block size that is enforced. -/
theorem C112_exact_partial (overlay : Option (Dict Str Int)) (source : Dict Str Int) (b f : Int)
    (hb : source.get? "f_blocks".toList = some b) (hf : source.get? "f_frsize".toList = some f) :
    total (statfs overlay source) = total source ↔ b = 0 ∨ 256 * 1024 ≤ f := by
  have hs : total source = some (b * f) := by
    unfold total
    rw [hb, hf]
  rw [total_statfs overlay source b f hb hf, hs, Option.some.injEq]
  constructor
  · intro h
    by_cases hz : b = 0
    · exact Or.inl hz
    · right
      have := Int.eq_of_mul_eq_mul_left hz h
      omega
  · rintro (h | h)
    · rw [h]
      simp
    · rw [Int.max_eq_left h]

example : total (statfs none [("f_frsize".toList, 1048576), ("f_blocks".toList, 10)]) = some 10485760 := by decide

/-! ## C113: attributes -/

/-- The number of binary digits. -/
def bits (n : Nat) : Nat := if n = 0 then 0 else Nat.log2 n + 1

/-- The double nearest to a natural number, ties to even (IEEE 754, used at FuseMount.py:723). -/
def roundDouble (n : Nat) : Nat :=
  let s := 2 ^ (bits n - 53)
  let q := n / s
  let r := n % s
  if 2 * r > s ∨ (2 * r = s ∧ q % 2 = 1) then (q + 1) * s else q * s

/-- `int(fileInfo.mtime * 1e9)` for a time of whole seconds (FuseMount.py:723): the time becomes a double, the product
of two doubles is rounded to a double, and `1e9` is exact. -/
def mtimeNs (mtime : Nat) : Nat := roundDouble (roundDouble mtime * 1000000000)

/-- `'st_blocks': ceil_div(fileInfo.size, 512)` (FuseMount.py:735, utils.py:74-75). -/
def stBlocks (size : Int) : Int := -(size.fdiv (-512))

/-- C113 as claimed, times: a time of whole seconds is reported exactly, in nanoseconds. -/
def C113_statement : Prop := ∀ mtime : Nat, mtimeNs mtime = mtime * 1000000000

/-- C113 is violated: a file of the year 2116 is shown 256 nanoseconds and therefore a second earlier. -/
theorem C113_violated : ¬ C113_statement := by
  intro h
  exact absurd (h 4611686021) (by decide +kernel)

example : mtimeNs 4611686021 / 1000000000 = 4611686020 := by decide +kernel

theorem roundDouble_multiple (m s : Nat) (hm : m < 2 ^ 53) : roundDouble (m * 2 ^ s) = m * 2 ^ s := by
  unfold roundDouble
  simp only
  have hd : 2 ^ (bits (m * 2 ^ s) - 53) ∣ m * 2 ^ s := by
    apply Nat.dvd_mul_left_of_dvd
    apply Nat.pow_dvd_pow
    unfold bits
    split
    · omega
    · next h =>
      have hlt : m * 2 ^ s < 2 ^ (53 + s) := by
        rw [Nat.pow_add]
        exact (Nat.mul_lt_mul_right (Nat.two_pow_pos s)).mpr hm
      have := (Nat.log2_lt h).mpr hlt
      omega
  have hz : m * 2 ^ s % 2 ^ (bits (m * 2 ^ s) - 53) = 0 := Nat.mod_eq_zero_of_dvd hd
  rw [hz, if_neg, Nat.div_mul_cancel hd]
  have := Nat.two_pow_pos (bits (m * 2 ^ s) - 53)
  omega

/-- C113 for times up to the year 2116: they are reported exactly. -/
theorem C113_time_partial (mtime : Nat) (h : mtime * 1953125 < 2 ^ 53) : mtimeNs mtime = mtime * 1000000000 := by
  unfold mtimeNs
  have h1 := roundDouble_multiple mtime 0 (by omega)
  rw [Nat.pow_zero, Nat.mul_one] at h1
  rw [h1]
  have h2 := roundDouble_multiple (mtime * 1953125) 9 h
  rw [show mtime * 1000000000 = mtime * 1953125 * 2 ^ 9 by omega]
  exact h2

example : 1700000000 * 1953125 < 2 ^ 53 := by decide

/-- C113, blocks: the number of blocks is the smallest one that covers the size. -/
theorem C113_blocks (size : Nat) : (size : Int) ≤ 512 * stBlocks size ∧ 512 * (stBlocks size - 1) < max (size : Int) 1 := by
  unfold stBlocks
  rw [Int.fdiv_neg (by omega), Int.fdiv_eq_ediv_of_nonneg _ (by omega)]
  split <;> omega

end Verif.Fuse.Stat
