import Verif.Fat.Format

/-!
# C195: what a mounted FAT image shows
(core/ratarmountcore/_external/pyfatfs/PyFat.py:165-196, 364-532; core/ratarmountcore/mountsource/formats/fat.py:49-128)
-/

namespace Verif.FatImage

open Verif.Py Verif.Bin Verif.FileSpec
open Verif.FatTable (Kind parseFat)
open Verif.FatNames (Slot Piece DirEntry byteAt isLfn addPiece mkEntry parseSlots parseClusters)
open Verif.FatSource (DEnt Vol)

/-! ## slots in the image -/

/-- The first `n` slots of some bytes. -/
def chunks : Nat → Data → List Slot
  | 0, _ => []
  | n + 1, d => d.take 32 :: chunks n (d.drop 32)

theorem chunks_length (n : Nat) : ∀ d, (chunks n d).length = n := by
  induction n with
  | zero => intro d; rfl
  | succ n ih => intro d; rw [chunks, List.length_cons, ih]

theorem chunks_flatten : ∀ (ss : List Slot) (r : Data), (∀ s ∈ ss, s.length = 32) → chunks ss.length (ss.flatten ++ r) = ss := by
  intro ss
  induction ss with
  | nil => intro r _; rfl
  | cons s ss ih =>
    intro r h
    have hs := h s List.mem_cons_self
    rw [List.length_cons, chunks, List.flatten_cons, List.append_assoc, List.take_left' hs, List.drop_left' hs,
      ih r (fun x hx => h x (List.mem_cons_of_mem _ hx))]

theorem chunks_take (n : Nat) : ∀ d : Data, chunks n (d.take (32 * n)) = chunks n d := by
  induction n with
  | zero => intro d; rfl
  | succ n ih =>
    intro d
    rw [chunks, chunks, List.take_take, Nat.min_eq_left (by omega), List.drop_take, show 32 * (n + 1) - 32 = 32 * n by omega, ih]

theorem chunks_append (n m : Nat) : ∀ a b : Data, a.length = 32 * n → chunks (n + m) (a ++ b) = chunks n a ++ chunks m b := by
  induction n with
  | zero =>
    intro a b h
    have : a = [] := List.length_eq_zero_iff.mp (by omega)
    subst this
    rw [Nat.zero_add]
    rfl
  | succ n ih =>
    intro a b h
    rw [show n + 1 + m = (n + m) + 1 by omega, chunks, chunks, List.take_append_of_le_length (by omega),
      List.drop_append_of_le_length (by omega), ih _ _ (by rw [List.length_drop]; omega), List.cons_append]

theorem chunks_flatMap (m : Nat) (f : Nat → Data) : ∀ cs : List Nat, (∀ c ∈ cs, (f c).length = 32 * m) →
    (cs.map (fun c => chunks m (f c))).flatten = chunks (cs.length * m) (cs.flatMap f) := by
  intro cs
  induction cs with
  | nil => intro _; rw [List.length_nil, Nat.zero_mul]; rfl
  | cons c cs ih =>
    intro h
    rw [List.map_cons, List.flatten_cons, List.flatMap_cons, List.length_cons, Nat.succ_mul, Nat.add_comm,
      chunks_append _ _ _ _ (h c List.mem_cons_self), ih (fun x hx => h x (List.mem_cons_of_mem _ hx))]

theorem parseArea_eq (d : Data) : ∀ (n a : Nat) (tmp : List Piece), a + 32 * n ≤ d.length →
    parseArea d n a tmp = parseSlots (chunks n (d.drop a)) tmp := by
  intro n
  induction n with
  | zero => intro a tmp _; rfl
  | succ n ih =>
    intro a tmp h
    have hs : slotAt d a = .ok ((d.drop a).take 32) := by
      unfold slotAt
      rw [if_pos (by rw [List.length_take, List.length_drop]; omega)]
    rw [parseArea, hs, chunks, parseSlots, List.drop_drop]
    simp only
    rw [ih _ [] (by omega)]
    split
    · rfl
    · split
      · rfl
      · split
        · split
          · next he => rw [he]
          · next tmp' he => rw [he]; exact ih _ tmp' (by omega)
        · rfl

theorem cluster_slots {k : Disk} (h : k.Ok) : ∃ m, k.bps * k.spc = 32 * m ∧ 0 < m ∧ (k.bps * k.spc + 31) / 32 = m := by
  obtain ⟨b, hb, hb0⟩ : ∃ b, k.bps = 32 * b ∧ 0 < b := by
    rcases h.bps with e | e | e | e
    · exact ⟨16, by omega, by omega⟩
    · exact ⟨32, by omega, by omega⟩
    · exact ⟨64, by omega, by omega⟩
    · exact ⟨128, by omega, by omega⟩
  have e : k.bps * k.spc = 32 * (b * k.spc) := by rw [hb, Nat.mul_assoc]
  exact ⟨b * k.spc, e, Nat.mul_pos hb0 (spc_pos h), by omega⟩

theorem parseChain_eq {k : Disk} (h : k.Ok) {m : Nat} (hm : k.bps * k.spc = 32 * m) : ∀ (cs : List Nat) (tmp : List Piece), k.Inside cs →
    parseChain k.volume k.image cs tmp = parseClusters (cs.map (fun c => chunks m (k.cluster c))) tmp := by
  intro cs
  induction cs with
  | nil => intro tmp _; rfl
  | cons c cs ih =>
    intro tmp hc
    have hin := hc c List.mem_cons_self
    obtain ⟨h1, h2⟩ := cluster_image h hin
    have hl := cluster_length h hin
    have hb : (bytesPerCluster k.volume + 31) / 32 = m := by
      show (k.bps * k.spc + 31) / 32 = m
      omega
    have hlen : (clusterAddress k.volume c).toNat + 32 * m ≤ k.image.length := by
      have := congrArg List.length h2
      rw [hl, List.length_take, List.length_drop] at this
      have hpos : 0 < k.bps * k.spc := Nat.mul_pos (by have := bps_pos h; omega) (spc_pos h)
      omega
    rw [parseChain, if_neg h1, hb, parseArea_eq _ _ _ _ hlen, List.map_cons, parseClusters]
    have hch : chunks m (k.image.drop (clusterAddress k.volume c).toNat) = chunks m (k.cluster c) := by
      rw [← h2, hm, chunks_take]
    rw [hch]
    split
    · next he => rw [he]
    · next es t he =>
      rw [he]
      simp only
      rw [ih t (fun x hx => hc x (List.mem_cons_of_mem _ hx))]
      rfl

/-! ## the slots of entries -/

theorem field_one (s : Data) (p : Nat) : Fat.field 1 s p = byteAt s p := by
  unfold Fat.field byteAt
  rw [← List.head?_drop]
  cases s.drop p with
  | nil => rfl
  | cons b r => simp [leNat]

theorem byteAt_head (s : Data) : byteAt s 0 = (s.head?.getD 0).toNat := by
  unfold byteAt
  cases s <;> rfl

theorem storedBase_length (b : Data) : (storedBase b).length = b.length := by cases b <;> rfl

theorem stored_length {x : Codec} {i : Item} (h : i.Ok x) : i.stored.length = 11 := by
  have h1 := h.base.2.1
  have h2 := h.ext.1
  unfold Item.stored
  simp only [List.length_append, List.length_replicate, storedBase_length]
  omega

theorem short_take {x : Codec} {i : Item} (h : i.Ok x) : i.short.take 11 = i.stored := by
  unfold Item.short
  rw [List.take_left' (stored_length h)]

theorem short_length {x : Codec} {i : Item} (h : i.Ok x) : i.short.length = 32 := by
  unfold Item.short
  simp only [List.length_append, length_toLE, stored_length h, h.misc]

theorem attr_short {x : Codec} {i : Item} (h : i.Ok x) : Fat.field 1 i.short 11 = i.attr := by
  unfold Item.short
  rw [show (11 : Nat) = 11 + 0 from rfl, field_skip _ _ _ _ _ (stored_length h), field_here _ _ _ h.attr.1]

theorem fields_short {x : Codec} {i : Item} (h : i.Ok x) : Fat.field 2 i.short 20 = i.first / 65536 ∧ Fat.field 2 i.short 22 = i.time ∧
    Fat.field 2 i.short 24 = i.date ∧ Fat.field 2 i.short 26 = i.first % 65536 ∧ Fat.field 4 i.short 28 = i.size := by
  have hf := h.first
  unfold Item.short
  have key : ∀ n q, Fat.field n (i.stored ++ (toLE i.attr 1 ++ (i.misc ++ (toLE (i.first / 65536) 2 ++ (toLE i.time 2 ++ (toLE i.date 2 ++
    (toLE (i.first % 65536) 2 ++ toLE i.size 4))))))) (11 + (1 + (8 + q))) = Fat.field n (toLE (i.first / 65536) 2 ++ (toLE i.time 2 ++
      (toLE i.date 2 ++ (toLE (i.first % 65536) 2 ++ toLE i.size 4)))) q := by
    intro n q
    rw [field_skip _ _ _ _ _ (stored_length h), field_skip _ _ _ _ _ (length_toLE _ _), field_skip _ _ _ _ _ h.misc]
  refine ⟨?_, ?_, ?_, ?_, ?_⟩
  · rw [show (20 : Nat) = 11 + (1 + (8 + 0)) from rfl, key, field_here _ _ _ (by omega)]
  · rw [show (22 : Nat) = 11 + (1 + (8 + (2 + 0))) from rfl, key, field_skip _ _ _ _ _ (length_toLE _ _), field_here _ _ _ h.times.1]
  · rw [show (24 : Nat) = 11 + (1 + (8 + (2 + (2 + 0)))) from rfl, key, field_skip _ _ _ _ _ (length_toLE _ _),
      field_skip _ _ _ _ _ (length_toLE _ _), field_here _ _ _ h.times.2]
  · rw [show (26 : Nat) = 11 + (1 + (8 + (2 + (2 + (2 + 0))))) from rfl, key, field_skip _ _ _ _ _ (length_toLE _ _),
      field_skip _ _ _ _ _ (length_toLE _ _), field_skip _ _ _ _ _ (length_toLE _ _), field_here _ _ _ (by omega)]
  · rw [show (28 : Nat) = 11 + (1 + (8 + (2 + (2 + (2 + (2 + 0)))))) from rfl, key, field_skip _ _ _ _ _ (length_toLE _ _),
      field_skip _ _ _ _ _ (length_toLE _ _), field_skip _ _ _ _ _ (length_toLE _ _), field_skip _ _ _ _ _ (length_toLE _ _),
      field_end _ _ h.size]

theorem head_short {x : Codec} {i : Item} (h : i.Ok x) : ∃ b r, i.base = b :: r ∧
    i.short.head? = some (if b = 0xE5 then 5 else b) ∧ b ≠ 0 := by
  obtain ⟨h1, -, h2, -⟩ := h.base
  cases hb : i.base with
  | nil => exact absurd hb h1
  | cons b r =>
    refine ⟨b, r, rfl, ?_, ?_⟩
    · unfold Item.short Item.stored
      rw [hb]
      simp [storedBase]
    · intro e
      rw [hb, e] at h2
      exact h2 rfl

theorem short_ok {x : Codec} {i : Item} (h : i.Ok x) : FatNames.Short i.short := by
  obtain ⟨b, r, -, hh, hb⟩ := head_short h
  have h0 : byteAt i.short 0 = (if b = 0xE5 then (5 : UInt8) else b).toNat := by rw [byteAt_head, hh]; rfl
  refine ⟨?_, ?_, ?_⟩
  · rw [h0]
    split
    · decide
    · intro e
      exact hb (UInt8.toNat_inj.mp e)
  · rw [h0]
    split
    · decide
    · next hne =>
      intro e
      exact hne (UInt8.toNat_inj.mp e)
  · unfold isLfn
    rw [← field_one, attr_short h]
    simp [h.attr.2]

theorem gone_byte {s : Slot} (h : s.head? = some 0xE5) : byteAt s 0 = 0xE5 := by
  rw [byteAt_head, h]
  rfl

theorem zero_byte {s : Slot} (h : s.head? = some 0) : byteAt s 0 = 0 := by
  rw [byteAt_head, h]
  rfl

theorem parse_gone (rest : List Slot) : ∀ gone : List Slot, (∀ s ∈ gone, s.length = 32 ∧ s.head? = some 0xE5) →
    parseSlots (gone ++ rest) [] = parseSlots rest [] := by
  intro gone
  induction gone with
  | nil => intro _; rfl
  | cons s gone ih =>
    intro h
    rw [List.cons_append, parseSlots, if_pos (gone_byte (h s List.mem_cons_self).2), ih (fun x hx => h x (List.mem_cons_of_mem _ hx))]

/-- The entry the code makes of an item. -/
def Item.raw (i : Item) : DirEntry := ⟨i.short, i.long.map encode16⟩

theorem parse_item {x : Codec} {i : Item} (h : i.Ok x) (rest : List Slot) :
    parseSlots (i.all ++ rest) [] = match parseSlots rest [] with
      | .error e => .error e
      | .ok (es, t) => .ok (i.raw :: es, t) := by
  unfold Item.all
  rw [List.append_assoc, parse_gone _ _ h.gone, List.append_assoc, List.singleton_append]
  have hs := short_ok h
  have hl := h.long
  unfold Item.raw
  cases hn : i.long with
  | none =>
    rw [hn] at hl
    simp only at hl
    rw [hl, List.nil_append, parseSlots, if_neg hs.2.1, if_neg hs.1, if_neg (by rw [hs.2.2]; simp)]
    have : mkEntry i.short [] = ⟨i.short, Option.map encode16 none⟩ := by
      unfold mkEntry
      rw [if_neg (by intro hc; exact absurd hc.1 (by decide))]
      rfl
    rw [this]
    rfl
  | some n =>
    rw [hn] at hl
    simp only at hl
    have hf : FatNames.File.Ok ⟨encode16 n, i.pieces, i.slots, i.short⟩ :=
      ⟨hl.1, hl.2.1, by rw [short_take h]; exact hl.2.2, hs⟩
    exact FatNames.C72_name _ hf rest

theorem parse_items {x : Codec} (ends : List Slot) (he : parseSlots ends [] = .ok ([], [])) : ∀ items : List Item, (∀ i ∈ items, i.Ok x) →
    parseSlots (items.flatMap Item.all ++ ends) [] = .ok (items.map Item.raw, []) := by
  intro items
  induction items with
  | nil => intro _; exact he
  | cons i items ih =>
    intro h
    rw [List.flatMap_cons, List.append_assoc, parse_item (h i List.mem_cons_self), ih (fun x hx => h x (List.mem_cons_of_mem _ hx))]
    rfl

theorem parse_zeros (zeros : List Slot) (h : ∀ s ∈ zeros, s.length = 32 ∧ s.head? = some 0) : parseSlots zeros [] = .ok ([], []) := by
  cases zeros with
  | nil => rfl
  | cons s r =>
    have := zero_byte (h s List.mem_cons_self).2
    rw [parseSlots, if_neg (by omega), if_pos this]

theorem piece_slot {chk : Nat} {cs : List (List Nat)} (hl : ∀ c ∈ cs, c.length = 13) : ∀ (i : Nat) (s : Slot), s ∈ FatNames.lfnSlots chk i cs → s.length = 32 := by
  induction cs with
  | nil => intro i s hs; cases hs
  | cons c cs ih =>
    intro i s hs
    rw [FatNames.lfnSlots] at hs
    split at hs
    · rw [List.mem_singleton] at hs
      rw [hs, FatNames.slot_length _ _ _ (hl c List.mem_cons_self)]
    · rcases List.mem_cons.mp hs with rfl | hs
      · exact FatNames.slot_length _ _ _ (hl c List.mem_cons_self)
      · exact ih (fun x hx => hl x (List.mem_cons_of_mem _ hx)) _ _ hs

/-- The slots of an entry have 32 bytes, and none of them ends the folder. -/
theorem all_slots {x : Codec} {i : Item} (h : i.Ok x) : ∀ s ∈ i.all, s.length = 32 ∧ byteAt s 0 ≠ 0 := by
  intro s hs
  unfold Item.all at hs
  rcases List.mem_append.mp hs with hs | hs
  · have := h.gone s hs
    exact ⟨this.1, by rw [gone_byte this.2]; decide⟩
  · rcases List.mem_append.mp hs with hs | hs
    · have hl := h.long
      cases hn : i.long with
      | none =>
        rw [hn] at hl
        simp only at hl
        rw [hl] at hs
        cases hs
      | some n =>
        rw [hn] at hl
        simp only at hl
        have hmem := hl.2.2.mem_iff.mp hs
        obtain ⟨hp, -, hc⟩ := hl.2.1
        have := (FatNames.lfnSlots_facts (FatNames.checksum i.stored) (FatNames.checksum_lt _) i.pieces 1 hp (by omega) (by omega)).2 s hmem
        exact ⟨piece_slot hp 1 s hmem, this.2.1⟩
    · rw [List.mem_singleton] at hs
      rw [hs]
      exact ⟨short_length h, (short_ok h).1⟩

/-- The slots of a folder: those of its entries, and the unused ones behind them. -/
theorem layout_slots {x : Codec} {bytes : Data} {items : List Item} (h : Layout bytes items) (hi : ∀ i ∈ items, i.Ok x) :
    ∃ used zeros : List Slot, bytes = (used ++ zeros).flatten ∧ (∀ s ∈ used ++ zeros, s.length = 32) ∧ (∀ s ∈ used, byteAt s 0 ≠ 0) ∧
      (∀ s ∈ zeros, byteAt s 0 = 0) ∧ parseSlots (used ++ zeros) [] = .ok (items.map Item.raw, []) := by
  obtain ⟨removed, zeros, h1, h2, h3⟩ := h
  refine ⟨items.flatMap Item.all ++ removed, zeros, by rw [h3, List.append_assoc], ?_, ?_, fun s hs => zero_byte (h2 s hs).2, ?_⟩
  · intro s hs
    rcases List.mem_append.mp hs with hs | hs
    · rcases List.mem_append.mp hs with hs | hs
      · obtain ⟨i, hm, hs⟩ := List.mem_flatMap.mp hs
        exact (all_slots (hi i hm) s hs).1
      · exact (h1 s hs).1
    · exact (h2 s hs).1
  · intro s hs
    rcases List.mem_append.mp hs with hs | hs
    · obtain ⟨i, hm, hs⟩ := List.mem_flatMap.mp hs
      exact (all_slots (hi i hm) s hs).2
    · rw [gone_byte (h1 s hs).2]
      decide
  · rw [List.append_assoc]
    exact parse_items _ (by rw [parse_gone _ _ h1, parse_zeros _ h2]) _ hi

theorem flatten_width {ss : List Slot} (h : ∀ s ∈ ss, s.length = 32) : ss.flatten.length = 32 * ss.length := by
  induction ss with
  | nil => rfl
  | cons s ss ih =>
    rw [List.flatten_cons, List.length_append, h s List.mem_cons_self, ih (fun x hx => h x (List.mem_cons_of_mem _ hx)), List.length_cons]
    omega

theorem flatMap_width (f : Nat → Data) (w : Nat) : ∀ cs : List Nat, (∀ c ∈ cs, (f c).length = w) → (cs.flatMap f).length = cs.length * w := by
  intro cs
  induction cs with
  | nil => intro _; simp
  | cons c cs ih =>
    intro h
    rw [List.flatMap_cons, List.length_append, h c List.mem_cons_self, ih (fun x hx => h x (List.mem_cons_of_mem _ hx)), List.length_cons,
      Nat.succ_mul]
    omega

/-- The chain of a folder gives its entries. -/
theorem parseChain_layout {k : Disk} {x : Codec} (h : k.Ok) {cs : List Nat} {items : List Item} (hin : k.Inside cs)
    (hl : Layout (cs.flatMap k.cluster) items) (hi : ∀ i ∈ items, i.Ok x) :
    parseChain k.volume k.image cs [] = .ok (items.map Item.raw) := by
  obtain ⟨m, hm, hm0, -⟩ := cluster_slots h
  obtain ⟨used, zeros, e1, e2, e3, e4, e5⟩ := layout_slots hl hi
  have hw : ∀ c ∈ cs, (k.cluster c).length = 32 * m := fun c hc => by rw [← hm]; exact cluster_length h (hin c hc)
  have hflat : (cs.map (fun c => chunks m (k.cluster c))).flatten = used ++ zeros := by
    rw [chunks_flatMap m k.cluster cs hw, e1]
    have hlen : cs.length * m = (used ++ zeros).length := by
      have := flatMap_width k.cluster _ cs hw
      rw [e1, flatten_width e2] at this
      have h32 : cs.length * (32 * m) = 32 * (cs.length * m) := by rw [Nat.mul_left_comm]
      omega
    rw [hlen]
    have := chunks_flatten (used ++ zeros) [] e2
    rwa [List.append_nil] at this
  rw [parseChain_eq h hm cs [] hin]
  have key := FatNames.C103_partial (cs.map (fun c => chunks m (k.cluster c))) [] (by
    intro a c b he hs d hd
    rw [he, List.flatten_append, List.flatten_cons, ← List.append_assoc] at hflat
    obtain ⟨s, hs, hs0⟩ := hs
    have hsub : ∀ y ∈ b.flatten, y ∈ zeros := by
      rcases List.append_eq_append_iff.mp hflat with ⟨a', h1, h2⟩ | ⟨c', h1, h2⟩
      · exfalso
        exact e3 s (by rw [h1]; exact List.mem_append_left _ (List.mem_append_right _ hs)) hs0
      · intro y hy
        rw [h2]
        exact List.mem_append_right _ hy
    have hdm : d ∈ cs.map (fun c => chunks m (k.cluster c)) := by rw [he]; simp [hd]
    obtain ⟨c', -, hc'⟩ := List.mem_map.mp hdm
    have hdl : d.length = m := by rw [← hc', chunks_length]
    cases d with
    | nil => simp at hdl; omega
    | cons y r => exact ⟨y, rfl, e4 y (hsub y (List.mem_flatten.mpr ⟨_, hd, List.mem_cons_self⟩))⟩)
  rw [hflat, e5] at key
  cases hp : parseClusters (cs.map (fun c => chunks m (k.cluster c))) [] with
  | error e => rw [hp] at key; cases key
  | ok r =>
    rw [hp] at key
    simp only [Except.toOption, Option.map_some, Option.some.injEq] at key
    rw [key]

theorem chain_unique {kind : Kind} {fat : List Nat} {i : Nat} {a : List Nat} (h : FatChain.Chain kind fat i a) :
    ∀ b, FatChain.Chain kind fat i b → a = b := by
  have excl : ∀ v, FatChain.IsEnd kind v → FatChain.IsData kind v → False := by
    intro v h1 h2
    unfold FatChain.IsEnd at h1
    unfold FatChain.IsData at h2
    rcases h1 with h1 | ⟨rfl, h1⟩
    · omega
    · rw [FatChain.bits] at h2
      omega
  induction h with
  | last h1 h2 =>
    intro b hb
    cases hb with
    | last _ _ => rfl
    | next h3 h4 _ => rw [h1, Option.some.injEq] at h3; subst h3; exact absurd (excl _ h2 h4) (fun h => h)
  | next h1 h2 _ ih =>
    intro b hb
    cases hb with
    | last h3 h4 => rw [h1, Option.some.injEq] at h3; subst h3; exact absurd (excl _ h4 h2) (fun h => h)
    | next h3 h4 h5 => rw [h1, Option.some.injEq] at h3; subst h3; rw [ih _ h5]

theorem chain_lt {kind : Kind} {fat : List Nat} {i : Nat} {a : List Nat} (h : FatChain.Chain kind fat i a) : ∀ c ∈ a, c < fat.length := by
  induction h with
  | last h1 h2 => intro c hc; rw [List.mem_singleton] at hc; rw [hc]; exact (List.getElem?_eq_some_iff.mp h1).1
  | next h1 h2 _ ih =>
    intro c hc
    rcases List.mem_cons.mp hc with rfl | hc
    · exact (List.getElem?_eq_some_iff.mp h1).1
    · exact ih c hc

/-- A chain that ends meets no cluster twice. -/
theorem chain_nodup {kind : Kind} {fat : List Nat} {i : Nat} {a : List Nat} (h : FatChain.Chain kind fat i a) : a.Nodup := by
  induction h with
  | last h1 h2 => simp
  | @next i v cs h1 h2 h3 ih =>
    rw [List.nodup_cons]
    refine ⟨fun hmem => ?_, ih⟩
    obtain ⟨j, hj, hji⟩ := List.mem_iff_getElem.mp hmem
    have hd := FatChain.chain_drop h3 j hj
    rw [hji] at hd
    have := congrArg List.length (chain_unique hd _ (.next h1 h2 h3))
    rw [List.length_drop, List.length_cons] at this
    omega

theorem collect_more (kind : Kind) (fat : List Nat) : ∀ (n m : Nat) (g : FatChain.Gen) (cs : List Nat), n ≤ m →
    FatChain.collect kind fat n g = (cs, .stopped) → FatChain.collect kind fat m g = (cs, .stopped) := by
  intro n
  induction n with
  | zero => intro m g cs _ h; simp [FatChain.collect] at h
  | succ n ih =>
    intro m g cs hm h
    obtain ⟨m', rfl⟩ : ∃ m', m = m' + 1 := ⟨m - 1, by omega⟩
    rw [FatChain.collect] at h ⊢
    split at h
    · cases h
    · exact h
    · next c g' hg =>
      simp only [Prod.mk.injEq] at h
      have : FatChain.collect kind fat n g' = ((FatChain.collect kind fat n g').1, .stopped) := by
        rw [← h.2]
      rw [ih m' g' _ (by omega) this]
      simp only
      rw [h.1]

theorem collect_chain {kind : Kind} {fat : List Nat} {i : Nat} {cs : List Nat} (h : FatChain.Chain kind fat i cs) :
    FatChain.collect kind fat (fat.length + 1) (some i) = (cs, .stopped) := by
  have := FatChain.nodup_length fat.length cs (chain_nodup h) (chain_lt h)
  exact collect_more kind fat _ _ _ _ (by omega) (FatChain.C70_chain h)

/-- A folder in a chain of clusters is read. -/
theorem readFolder_layout {k : Disk} {x : Codec} (h : k.Ok) (r : List Nat) {first : Nat} {cs : List Nat} {items : List Item}
    (hc : FatChain.Chain k.kind k.fat first cs) (hin : k.Inside cs)
    (hl : Layout (cs.flatMap k.cluster) items) (hi : ∀ i ∈ items, i.Ok x) :
    readFolder k.volume (k.fat ++ r) k.image first = .ok (items.map Item.raw) := by
  unfold readFolder
  show (match FatChain.collect (kindOf (typeOf k.kind)) (k.fat ++ r) ((k.fat ++ r).length + 1) (some first) with
    | (cs, .stopped) => parseChain k.volume k.image cs []
    | (cs, .failed e) => match parseChain k.volume k.image cs [] with
      | .error x => .error x
      | .ok _ => .error e
    | (_, .more) => .error .runtimeError) = _
  rw [kindOf_typeOf, collect_chain (chain_append r hc)]
  exact parseChain_layout h hin hl hi

theorem readRoot_image {k : Disk} {x : Codec} (h : k.Ok) (r : List Nat) {items : List Item} (hr : k.RootAt items) (hi : ∀ i ∈ items, i.Ok x) :
    readRoot k.volume (k.fat ++ r) k.image = .ok (items.map Item.raw) := by
  have fixed : Layout k.rootArea items →
      (parseArea k.image k.rootEntries ((k.reserved + k.fatSectors * k.copies) * k.bps) []).map Prod.fst = .ok (items.map Item.raw) := by
    intro hr
    obtain ⟨used, zeros, e1, e2, e3, e4, e5⟩ := layout_slots hr hi
    have hlen : (used ++ zeros).length = k.rootEntries := by
      have := h.rootArea
      rw [e1, flatten_width e2] at this
      omega
    have hdrop := root_image h
    have hend : (k.reserved + k.fatSectors * k.copies) * k.bps + 32 * k.rootEntries ≤ k.image.length := by
      have h1 : k.image = (k.sector ++ (k.more ++ ((tableBytes k.kind k.fat ++ k.filler) ++ k.others))) ++
          (k.rootArea ++ (k.clusters.flatten ++ k.rest)) := by
        unfold Disk.image
        simp only [List.append_assoc]
      rw [h1, List.length_append, before_length h, List.length_append, h.rootArea]
      omega
    rw [parseArea_eq _ _ _ _ hend, hdrop, e1, ← hlen, chunks_flatten _ _ e2, e5]
    rfl
  unfold readRoot
  unfold Disk.RootAt at hr
  show (match typeOf k.kind with
    | .fat32 => readFolder k.volume (k.fat ++ r) k.image (Fat.field 4 k.image 44)
    | _ => (parseArea k.image k.rootEntries ((k.reserved + k.fatSectors * k.copies) * k.bps) []).map Prod.fst) = _
  cases hk : k.kind with
  | fat12 => rw [hk] at hr; exact fixed hr
  | fat16 => rw [hk] at hr; exact fixed hr
  | fat32 =>
    rw [hk] at hr
    simp only at hr
    obtain ⟨cs, hc, hin, hl⟩ := hr
    show readFolder k.volume (k.fat ++ r) k.image (Fat.field 4 k.image 44) = _
    have : Fat.field 4 k.image 44 = Fat.field 4 k.sector 44 := field_prefix _ _ _ _ (by rw [sector_length h]; omega)
    rw [this, rootCluster_sector h hk]
    exact readFolder_layout h r (hk ▸ hc) hin hl hi

/-- **C195**: the image of a formatted disk can be mounted. -/
theorem C195_mounts (k : Disk) (x : Codec) (es : List (Item × Option Tree)) (h : k.Ok) (hh : k.Holds x es) :
    ∃ r dirty, mount k.image = .ok ⟨k.volume, k.fat ++ r, (es.map Prod.fst).map Item.raw, dirty⟩ := by
  obtain ⟨r, hr, hl⟩ := readTable_image h
  obtain ⟨b, hb⟩ := dirty_image (k := k) (k.fat ++ r) hl
  refine ⟨r, b, ?_⟩
  unfold mount
  rw [header_image h]
  simp only
  rw [hr]
  simp only
  rw [hb]
  simp only
  rw [readRoot_image (x := x) h r hh.root (by
    intro i hi
    obtain ⟨e, he, rfl⟩ := List.mem_map.mp hi
    exact hh.ok.items e he)]

end Verif.FatImage
