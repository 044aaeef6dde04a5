import Verif.Stencil.Model
import Verif.PyLemmas

namespace Verif.Stencil

open Verif.Py

/-! ## cumulative sizes -/

theorem cumulate_length (start : Int) (l : List Nat) : (cumulate start l).length = l.length + 1 := by
  induction l generalizing start with
  | nil => rfl
  | cons a l ih => simp [cumulate, ih]

theorem cumulate_getElem (start : Int) (l : List Nat) (i : Nat) (h : i < (cumulate start l).length) :
    (cumulate start l)[i] = start + ((l.take i).sum : Nat) := by
  induction l generalizing start i with
  | nil =>
    have : i = 0 := by simp [cumulate] at h; omega
    subst this; simp [cumulate]
  | cons a l ih =>
    cases i with
    | zero => simp [cumulate]
    | succ i =>
      simp only [cumulate, List.getElem_cons_succ, List.take_succ_cons, List.sum_cons]
      rw [ih]; push_cast; omega

theorem cumulate_last (start : Int) (l : List Nat) :
    (cumulate start l).getLast?.getD 0 = start + (l.sum : Nat) := by
  have hl := cumulate_length start l
  rw [List.getLast?_eq_getElem?, List.getElem?_eq_getElem (by omega)]
  simp only [Option.getD_some]
  rw [cumulate_getElem]
  congr 3
  rw [List.take_of_length_le (by omega)]

theorem take_sum_mono (l : List Nat) (i j : Nat) (h : i ≤ j) : (l.take i).sum ≤ (l.take j).sum := by
  have : l.take j = l.take i ++ (l.drop i).take (j - i) := by
    conv => lhs; rw [show j = i + (j - i) by omega]
    exact List.take_add
  rw [this]; simp

theorem cumulate_sorted (start : Int) (l : List Nat) : (cumulate start l).Pairwise (· ≤ ·) := by
  rw [List.pairwise_iff_getElem]
  intro i j hi hj hij
  rw [cumulate_getElem, cumulate_getElem]
  have := take_sum_mono l i j (by omega)
  omega

/-! ## content of a view -/

/-- The bytes of one range. -/
def piece {α} (st : Store α) (s : Nat × Nat × Nat) : List α :=
  ((st s.1).content.drop s.2.1).take s.2.2

def pieces {α} (st : Store α) (ss : List (Nat × Nat × Nat)) : List α := ss.flatMap (piece st)

/-- The range lies inside its file and the file is open. -/
def Valid {α} (st : Store α) (s : Nat × Nat × Nat) : Prop :=
  s.2.1 + s.2.2 ≤ (st s.1).content.length ∧ (st s.1).closed = false

theorem piece_length {α} (st : Store α) (s) (h : Valid st s) : (piece st s).length = s.2.2 := by
  simp [piece]; have := h.1; omega

theorem pieces_length {α} (st : Store α) (ss) (h : ∀ s ∈ ss, Valid st s) :
    (pieces st ss).length = (ss.map (·.2.2)).sum := by
  induction ss with
  | nil => rfl
  | cons s ss ih =>
    simp only [pieces, List.flatMap_cons, List.length_append, List.map_cons, List.sum_cons]
    rw [piece_length st s (h s (by simp))]
    have := ih (fun s hs => h s (by simp [hs]))
    simp only [pieces] at this
    omega

theorem pieces_drop {α} (st : Store α) (ss : List (Nat × Nat × Nat)) (h : ∀ s ∈ ss, Valid st s)
    (i : Nat) (hi : i < ss.length) (k : Nat) (hk : k ≤ ss[i].2.2) :
    (pieces st ss).drop (((ss.map (·.2.2)).take i).sum + k)
      = (piece st ss[i]).drop k ++ pieces st (ss.drop (i + 1)) := by
  induction ss generalizing i with
  | nil => simp at hi
  | cons s ss ih =>
    have hs := piece_length st s (h s (by simp))
    cases i with
    | zero =>
      simp only [List.take_zero, List.sum_nil, Nat.zero_add, List.getElem_cons_zero, pieces,
        List.flatMap_cons, List.drop_succ_cons, List.drop_zero] at *
      rw [List.drop_append_of_le_length (by omega)]
    | succ i =>
      simp only [List.map_cons, List.take_succ_cons, List.sum_cons, List.getElem_cons_succ, pieces,
        List.flatMap_cons, List.drop_succ_cons] at *
      rw [← ih (fun s hs => h s (by simp [hs])) i (by simpa using hi) hk]
      rw [show s.2.2 + ((ss.map (·.2.2)).take i).sum + k
            = (piece st s).length + (((ss.map (·.2.2)).take i).sum + k) by omega]
      rw [List.drop_length_add_append]

/-! ## stores that differ in positions only -/

def SameData {α} (a b : Store α) : Prop :=
  ∀ f, (a f).content = (b f).content ∧ (a f).closed = (b f).closed

theorem SameData.refl {α} (a : Store α) : SameData a a := fun _ => ⟨rfl, rfl⟩
theorem SameData.symm {α} {a b : Store α} (h : SameData a b) : SameData b a :=
  fun f => ⟨(h f).1.symm, (h f).2.symm⟩
theorem SameData.trans {α} {a b c : Store α} (h : SameData a b) (h' : SameData b c) : SameData a c :=
  fun f => ⟨(h f).1.trans (h' f).1, (h f).2.trans (h' f).2⟩

theorem sameData_seek {α} (st : Store α) (f p : Nat) : SameData (st.seek f p) st := by
  intro g; unfold Store.seek; split
  · next h => subst h; exact ⟨rfl, rfl⟩
  · exact ⟨rfl, rfl⟩

theorem SameData.piece {α} {a b : Store α} (h : SameData a b) (s) :
    Verif.Stencil.piece a s = Verif.Stencil.piece b s := by
  simp [Verif.Stencil.piece, (h s.1).1]

theorem SameData.pieces {α} {a b : Store α} (h : SameData a b) (ss) :
    Verif.Stencil.pieces a ss = Verif.Stencil.pieces b ss := by
  simp only [Verif.Stencil.pieces]
  congr 1; funext s; exact h.piece s

theorem SameData.valid {α} {a b : Store α} (h : SameData a b) {s} (hv : Valid b s) : Valid a s := by
  unfold Valid at *; rw [(h s.1).1, (h s.1).2]; exact hv

/-! ## well-formed views -/

structure WF {α} (st : Store α) (r : Raw) : Prop where
  cum : r.cumsizes = cumulate 0 (r.stencils.map (·.2.2))
  pos : ∀ s ∈ r.stencils, 0 < s.2.2
  valid : ∀ s ∈ r.stencils, Valid st s

theorem WF.same {α} {a b : Store α} {r : Raw} (h : WF b r) (hd : SameData a b) : WF a r :=
  ⟨h.cum, h.pos, fun s hs => hd.valid (h.valid s hs)⟩

theorem WF.offset {α} {st : Store α} {r : Raw} (h : WF st r) (o : Int) : WF st { r with offset := o } :=
  ⟨h.cum, h.pos, h.valid⟩

theorem WF.total {α} {st : Store α} {r : Raw} (h : WF st r) :
    r.cumsizes.getLast?.getD 0 = ((pieces st r.stencils).length : Nat) := by
  rw [h.cum, cumulate_last, pieces_length st _ h.valid]; omega

/-- What `_find_stencil` returns: the range that contains the position, or one past the last. -/
theorem findStencil_spec {α} {st : Store α} {r : Raw} (h : WF st r) (p : Nat) :
    ∃ i, r.findStencil p = .ok i ∧ i ≤ r.stencils.length ∧
      ((r.stencils.map (·.2.2)).take i).sum ≤ p ∧
      (∀ hi : i < r.stencils.length, p < ((r.stencils.map (·.2.2)).take i).sum + r.stencils[i].2.2) := by
  have hsort : r.cumsizes.Pairwise (· ≤ ·) := by rw [h.cum]; exact cumulate_sorted _ _
  obtain ⟨h1, h2, h3⟩ := bisectLeft_spec r.cumsizes ((p : Int) + 1) hsort
  have hlen : r.cumsizes.length = r.stencils.length + 1 := by rw [h.cum, cumulate_length]; simp
  have hget : ∀ i (hi : i < r.cumsizes.length), r.cumsizes[i] = (((r.stencils.map (·.2.2)).take i).sum : Nat) := by
    intro i hi
    have := cumulate_getElem 0 (r.stencils.map (·.2.2)) i (by rw [← h.cum]; exact hi)
    simp only [h.cum]
    omega
  have hpos : 0 < bisectLeft r.cumsizes ((p : Int) + 1) := by
    rcases Nat.eq_zero_or_pos (bisectLeft r.cumsizes ((p : Int) + 1)) with h0 | h0
    · have := h3 0 (by omega) (by omega)
      rw [hget] at this; simp at this; omega
    · exact h0
  generalize hb : bisectLeft r.cumsizes ((p : Int) + 1) = b at *
  refine ⟨b - 1, ?_, by omega, ?_, ?_⟩
  · unfold Raw.findStencil
    rw [if_neg (by omega), hb]
    rw [if_neg (by omega)]
    congr 1; omega
  · have := h2 (b - 1) (by omega) (by omega)
    rw [hget] at this; omega
  · intro hi
    have hb1 : b < r.cumsizes.length := by omega
    have := h3 b hb1 (Nat.le_refl _)
    rw [hget] at this
    have hs : ((r.stencils.map (·.2.2)).take b).sum
        = ((r.stencils.map (·.2.2)).take (b - 1)).sum + r.stencils[b - 1].2.2 := by
      conv => lhs; rw [show b = (b - 1) + 1 by omega]
      rw [List.take_add_one, List.sum_append]
      rw [List.getElem?_eq_getElem (by simpa using hi)]
      simp
    omega

/-- Where `_read1_unlocked` reads at a non-negative position: bytes that continue the content. -/
theorem locate_spec {α} {st : Store α} {r : Raw} (h : WF st r) (p n : Nat) (hp : r.offset = p) (hn : 0 < n) :
    (r.locate st n = .ok none ∧ (pieces st r.stencils).length ≤ p) ∨
    (∃ f q k, r.locate st n = .ok (some (f, q, k)) ∧ 0 < k ∧ k ≤ n ∧
      k ≤ (pieces st r.stencils).length - p ∧
      ((st f).content.drop q).take k = ((pieces st r.stencils).drop p).take k) := by
  obtain ⟨i, hf, hi, hlo, hhi⟩ := findStencil_spec h p
  have htot := pieces_length st r.stencils h.valid
  unfold Raw.locate
  rw [hp, hf]
  rcases Nat.lt_or_ge i r.stencils.length with hlt | hge
  · right
    simp only [List.getElem?_eq_getElem hlt]
    have hmem : r.stencils[i] ∈ r.stencils := List.getElem_mem hlt
    have hv := h.valid _ hmem
    have hp0 := h.pos _ hmem
    have hd := pieces_drop st r.stencils h.valid i hlt (p - ((r.stencils.map (·.2.2)).take i).sum)
      (by have := hhi hlt; omega)
    rw [show ((r.stencils.map (·.2.2)).take i).sum + (p - ((r.stencils.map (·.2.2)).take i).sum) = p by omega] at hd
    have hpl := piece_length st _ hv
    have hhi' := hhi hlt
    have hc : r.cumsizes[i]? = some ((((r.stencils.map (·.2.2)).take i).sum : Nat) : Int) := by
      rw [h.cum, List.getElem?_eq_getElem (by rw [cumulate_length]; simp; omega), cumulate_getElem]
      simp
    generalize hT : ((r.stencils.map (·.2.2)).take i).sum = T at *
    have hlen : (pieces st r.stencils).length ≥ T + r.stencils[i].2.2 := by
      have h1 := congrArg List.length hd
      simp only [List.length_drop, List.length_append, hpl] at h1
      omega
    generalize hs : r.stencils[i] = s at *
    obtain ⟨f, off, sz⟩ := s
    simp only at *
    rw [if_neg (by simp [hv.2]), hc]
    have hb : off + sz ≤ (st f).content.length := hv.1
    have hin : ((p : Int) - (T : Int)).toNat = p - T := by omega
    simp only [hin]
    rw [if_neg (by omega), if_neg (by omega)]
    refine ⟨f, off + (p - T), min n (sz - (p - T)), rfl, by omega, by omega, by omega, ?_⟩
    rw [hd]
    simp only [piece]
    rw [List.take_append_of_le_length (by simp; omega)]
    rw [List.drop_take, List.drop_drop, List.take_take]
    congr 1; omega
  · left
    have hnone : r.stencils[i]? = none := List.getElem?_eq_none hge
    simp only [hnone]
    have hall : ((r.stencils.map (·.2.2)).take i).sum = (pieces st r.stencils).length := by
      rw [List.take_of_length_le (by simpa using hge), htot]
    exact ⟨trivial, by omega⟩

/-- One `_read1_unlocked` at a non-negative position returns a prefix of what is left:
nonempty unless at the end, never more than asked for. -/
theorem read1_spec {α} {st : Store α} {r : Raw} (h : WF st r) (p n : Nat) (hp : r.offset = p)
    (hn : 0 < n) :
    ∃ st' k, r.read1 st n = (st', { r with offset := (p + k : Nat) },
        .ok (((pieces st r.stencils).drop p).take k)) ∧ SameData st' st ∧ k ≤ n ∧
      k ≤ (pieces st r.stencils).length - p ∧ (p < (pieces st r.stencils).length → 0 < k) := by
  unfold Raw.read1
  rcases locate_spec h p n hp hn with ⟨hl, hle⟩ | ⟨f, q, k, hl, hk, hkn, hkl, hd⟩
  · rw [hl]
    refine ⟨st, 0, ?_, SameData.refl _, by omega, by omega, by omega⟩
    simp only [List.take_zero, Nat.add_zero]
    rw [← hp]
  · rw [hl]
    refine ⟨((st.seek f q).read f k).2, k, ?_, ?_, hkn, hkl, fun _ => hk⟩
    · have hdata : ((st.seek f q).read f k).1 = ((pieces st r.stencils).drop p).take k := by
        rw [← hd]; simp only [Store.read, Store.seek, if_true]
      have hlen2 : (((pieces st r.stencils).drop p).take k).length = k := by simp; omega
      rw [show ((st.seek f q).read f k) = (((st.seek f q).read f k).1, ((st.seek f q).read f k).2) from rfl]
      simp only [hdata, hlen2, hp]
      rw [Int.natCast_add]
    · simp only [Store.read]
      exact (sameData_seek _ _ _).trans (sameData_seek _ _ _)

theorem readLoop_spec {α} (n : Nat) : ∀ {st : Store α} {r : Raw} (_ : WF st r) (p : Nat) (_ : r.offset = p)
    (acc : List α),
    ∃ st', r.readLoop st n acc = (st',
        { r with offset := (p + (((pieces st r.stencils).drop p).take n).length : Nat) },
        .ok (acc ++ ((pieces st r.stencils).drop p).take n)) ∧ SameData st' st := by
  induction n using Nat.strongRecOn with
  | _ n ih =>
    intro st r h p hp acc
    unfold Raw.readLoop
    split
    · next h0 => subst h0; refine ⟨st, ?_, SameData.refl _⟩; simp [← hp]
    · next h0 =>
      obtain ⟨st', k, hr, hsd, hk, hk2, hk3⟩ := read1_spec h p n hp (by omega)
      rw [hr]
      cases hdat : ((pieces st r.stencils).drop p).take k with
      | nil =>
        refine ⟨st', ?_, hsd⟩
        have hl := congrArg List.length hdat
        simp at hl
        have hk0 : k = 0 := by omega
        have hge : (pieces st r.stencils).length ≤ p := by
          rcases Nat.lt_or_ge p (pieces st r.stencils).length with h1 | h1
          · have := hk3 h1; omega
          · exact h1
        rw [List.drop_of_length_le hge]
        simp [hk0]
      | cons t ts =>
        have hl : ts.length + 1 = k := by
          have hl := congrArg List.length hdat
          simp at hl; omega
        obtain ⟨st'', hr2, hsd2⟩ := ih (n - k) (by omega) (st := st') (r := { r with offset := (p + k : Nat) })
          ((h.same hsd).offset _) (p + k) rfl (acc ++ t :: ts)
        refine ⟨st'', ?_, hsd2.trans hsd⟩
        simp only [hl]
        rw [hr2]
        simp only [hsd.pieces]
        have hsplit : ((pieces st r.stencils).drop p).take n
            = (t :: ts) ++ ((pieces st r.stencils).drop (p + k)).take (n - k) := by
          rw [← hdat, ← List.drop_drop]
          conv => lhs; rw [show n = k + (n - k) by omega]
          rw [List.take_add]
        congr 2
        · congr 1
          rw [hsplit]; simp only [List.length_append, List.length_cons]; omega
        · rw [hsplit]; simp
  
/-- `read(n)` at a non-negative position. -/
theorem read_spec {α} {st : Store α} {r : Raw} (h : WF st r) (p : Nat) (hp : r.offset = p) (n : Int) :
    ∃ st', r.read st n = (st',
        { r with offset := (p + (if n = -1 then (pieces st r.stencils).drop p
            else ((pieces st r.stencils).drop p).take n.toNat).length : Nat) },
        .ok (if n = -1 then (pieces st r.stencils).drop p
            else ((pieces st r.stencils).drop p).take n.toNat)) ∧ SameData st' st := by
  unfold Raw.read
  by_cases h1 : n = -1
  · simp only [if_pos h1]
    obtain ⟨st', hr, hsd⟩ := readLoop_spec
      ((r.cumsizes.getLast?.getD 0 - r.offset).toNat) h p hp ([] : List α)
    have ht : (r.cumsizes.getLast?.getD 0 - r.offset).toNat = (pieces st r.stencils).length - p := by
      rw [h.total, hp]; omega
    rw [List.take_of_length_le (by simp; omega)] at hr
    exact ⟨st', by rw [hr]; simp, hsd⟩
  · simp only [if_neg h1]
    by_cases h0 : n = 0
    · subst h0
      exact ⟨st, by simp [← hp], SameData.refl _⟩
    · simp only [if_neg h0]
      obtain ⟨st', hr, hsd⟩ := readLoop_spec n.toNat h p hp ([] : List α)
      exact ⟨st', by rw [hr]; simp, hsd⟩

theorem readLoop_neg {α} (st : Store α) (r : Raw) (n : Nat) (acc : List α) (hn : 0 < n) (hp : r.offset < 0) :
    r.readLoop st n acc = (st, r, .error .assertionError) := by
  unfold Raw.readLoop
  rw [if_neg (by omega)]
  have : r.read1 st n = (st, r, .error .assertionError) := by
    unfold Raw.read1 Raw.locate Raw.findStencil
    rw [if_pos hp]
  rw [this]

end Verif.Stencil
