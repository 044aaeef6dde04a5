import Verif.Py

namespace Verif.Py

theorem bisectLeftGo_spec (a : List Int) (x : Int) (lo hi : Nat)
    (hs : a.Pairwise (· ≤ ·)) (hlo : lo ≤ hi) (hhi : hi ≤ a.length)
    (hl : ∀ i (h : i < a.length), i < lo → a[i] < x)
    (hr : ∀ i (h : i < a.length), hi ≤ i → x ≤ a[i]) :
    bisectLeftGo a x lo hi ≤ a.length ∧
    (∀ i (h : i < a.length), i < bisectLeftGo a x lo hi → a[i] < x) ∧
    (∀ i (h : i < a.length), bisectLeftGo a x lo hi ≤ i → x ≤ a[i]) := by
  fun_induction bisectLeftGo a x lo hi with
  | case1 lo hi h mid v hv hlt ih =>
    have hm : mid < a.length := by omega
    have hv' : a[mid] = v := by
      rw [List.getElem?_eq_getElem hm] at hv; simpa using hv
    apply ih (by omega) hhi
    · intro i hi' hlt'
      have : a[i] ≤ a[mid] := by
        rcases Nat.lt_or_ge i mid with h1 | h1
        · exact (List.pairwise_iff_getElem.mp hs) i mid hi' hm h1
        · have : i = mid := by omega
          subst this; exact Int.le_refl _
      omega
    · exact hr
  | case2 lo hi h mid v hv hlt ih =>
    have hm : mid < a.length := by omega
    have hv' : a[mid] = v := by
      rw [List.getElem?_eq_getElem hm] at hv; simpa using hv
    apply ih (by omega) (by omega) hl
    intro i hi' hge
    have : a[mid] ≤ a[i] := by
      rcases Nat.lt_or_ge mid i with h1 | h1
      · exact (List.pairwise_iff_getElem.mp hs) mid i hm hi' h1
      · have : i = mid := by omega
        subst this; exact Int.le_refl _
    omega
  | case3 lo hi h mid hv =>
    have hm : mid < a.length := by omega
    simp [List.getElem?_eq_getElem hm] at hv
  | case4 lo hi h =>
    refine ⟨by omega, hl, ?_⟩
    intro i hi' hge
    exact hr i hi' (by omega)

/-- `bisect_left` splits a sorted list into the elements below `x` and the rest. -/
theorem bisectLeft_spec (a : List Int) (x : Int) (hs : a.Pairwise (· ≤ ·)) :
    bisectLeft a x ≤ a.length ∧
    (∀ i (h : i < a.length), i < bisectLeft a x → a[i] < x) ∧
    (∀ i (h : i < a.length), bisectLeft a x ≤ i → x ≤ a[i]) :=
  bisectLeftGo_spec a x 0 a.length hs (by omega) (Nat.le_refl _)
    (by intro i _ h; omega) (by intro i h h'; omega)

theorem bisectRightGo_spec (a : List Int) (x : Int) (lo hi : Nat)
    (hs : a.Pairwise (· ≤ ·)) (hlo : lo ≤ hi) (hhi : hi ≤ a.length)
    (hl : ∀ i (h : i < a.length), i < lo → a[i] ≤ x)
    (hr : ∀ i (h : i < a.length), hi ≤ i → x < a[i]) :
    bisectRightGo a x lo hi ≤ a.length ∧
    (∀ i (h : i < a.length), i < bisectRightGo a x lo hi → a[i] ≤ x) ∧
    (∀ i (h : i < a.length), bisectRightGo a x lo hi ≤ i → x < a[i]) := by
  fun_induction bisectRightGo a x lo hi with
  | case1 lo hi h mid v hv hlt ih =>
    have hm : mid < a.length := by omega
    have hv' : a[mid] = v := by
      rw [List.getElem?_eq_getElem hm] at hv; simpa using hv
    apply ih (by omega) (by omega) hl
    intro i hi' hge
    have : a[mid] ≤ a[i] := by
      rcases Nat.lt_or_ge mid i with h1 | h1
      · exact (List.pairwise_iff_getElem.mp hs) mid i hm hi' h1
      · have : i = mid := by omega
        subst this; exact Int.le_refl _
    omega
  | case2 lo hi h mid v hv hlt ih =>
    have hm : mid < a.length := by omega
    have hv' : a[mid] = v := by
      rw [List.getElem?_eq_getElem hm] at hv; simpa using hv
    apply ih (by omega) hhi
    · intro i hi' hlt'
      have : a[i] ≤ a[mid] := by
        rcases Nat.lt_or_ge i mid with h1 | h1
        · exact (List.pairwise_iff_getElem.mp hs) i mid hi' hm h1
        · have : i = mid := by omega
          subst this; exact Int.le_refl _
      omega
    · exact hr
  | case3 lo hi h mid hv =>
    have hm : mid < a.length := by omega
    simp [List.getElem?_eq_getElem hm] at hv
  | case4 lo hi h =>
    refine ⟨by omega, hl, ?_⟩
    intro i hi' hge
    exact hr i hi' (by omega)

/-- `bisect_right` splits a sorted list into the elements up to `x` and the rest. -/
theorem bisectRight_spec (a : List Int) (x : Int) (hs : a.Pairwise (· ≤ ·)) :
    bisectRight a x ≤ a.length ∧
    (∀ i (h : i < a.length), i < bisectRight a x → a[i] ≤ x) ∧
    (∀ i (h : i < a.length), bisectRight a x ≤ i → x < a[i]) :=
  bisectRightGo_spec a x 0 a.length hs (by omega) (Nat.le_refl _)
    (by intro i _ h; omega) (by intro i h h'; omega)

/-- The two halves of a Python slice always add up to the list. -/
theorem sliceTo_append_sliceFrom {α} (l : List α) (j : Int) :
    sliceTo l j ++ sliceFrom l j = l := by
  simp [sliceTo, sliceFrom]

theorem slice_nonneg {α} (l : List α) (i j : Nat) :
    slice l i j = (l.drop i).take (j - i) := by
  simp only [slice, sliceBound]
  have h1 : ¬ ((i : Int) < 0) := by omega
  have h2 : ¬ ((j : Int) < 0) := by omega
  simp only [h1, h2, if_false, Int.toNat_natCast]
  rw [List.take_drop]
  rcases Nat.le_total l.length j with hj | hj
  · rw [Nat.min_eq_right hj, List.take_of_length_le (Nat.le_refl _)]
    rw [List.take_of_length_le (by omega)]
    rcases Nat.le_total l.length i with hi | hi
    · rw [Nat.min_eq_right hi, List.drop_of_length_le (Nat.le_refl _), List.drop_of_length_le hi]
    · rw [Nat.min_eq_left hi]
  · rw [Nat.min_eq_left hj]
    rcases Nat.le_total i j with hij | hij
    · rw [Nat.min_eq_left (by omega)]
      congr 2; omega
    · rw [List.drop_of_length_le (by simp; omega), List.drop_of_length_le (by simp; omega)]

end Verif.Py
