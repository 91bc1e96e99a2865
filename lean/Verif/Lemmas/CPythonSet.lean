/-
Helper lemmas: tables of CPython sets whose elements are smaller than the number of slots, or have different remainders modulo it.
-/
import Verif.Model.CPythonOrder
import Verif.Spec.TableSize

namespace TJ

/-! ### Reading a table -/

/-- A list of slots in which the number `i` can only be in slot `k + i`. -/
def OwnFrom (k : Nat) (l : List (Option Nat)) : Prop := ∀ i x, l[i]? = some (some x) → x = k + i

theorem OwnFrom.sorted : ∀ {k : Nat} {l : List (Option Nat)}, OwnFrom k l →
    (l.filterMap id).Pairwise (· < ·) ∧ ∀ x ∈ l.filterMap id, k ≤ x := by
  intro k l
  induction l generalizing k with
  | nil => intro _; simp
  | cons o l ih =>
    intro h
    obtain ⟨h1, h2⟩ := ih (k := k + 1) (fun i x hx => by
      have := h (i + 1) x (by simpa using hx)
      omega)
    cases o with
    | none =>
      simp only [List.filterMap_cons, id]
      exact ⟨h1, fun x hx => by have := h2 x hx; omega⟩
    | some y =>
      have hy := h 0 y rfl
      simp only [List.filterMap_cons, id]
      refine ⟨List.pairwise_cons.2 ⟨fun x hx => ?_, h1⟩, ?_⟩
      · have := h2 x hx; omega
      · intro x hx
        rcases List.mem_cons.1 hx with rfl | hx
        · omega
        · have := h2 x hx; omega

/-- Every element sits in the slot with its own number. -/
structure PyTable.Own (t : PyTable) : Prop where
  len : t.slots.length = t.mask + 1
  own : OwnFrom 0 t.slots
  used : t.used = t.toList.length

theorem PyTable.Own.sorted {t : PyTable} (h : t.Own) : t.toList.Pairwise (· < ·) := h.own.sorted.1

theorem own_empty {n : Nat} (hn : 1 ≤ n) : (PyTable.empty n).Own where
  len := by show (List.replicate n none).length = n - 1 + 1; simp; omega
  own := by
    intro i x h
    have := List.mem_of_getElem? h
    have := List.eq_of_mem_replicate this
    cases this
  used := by rw [toList_empty]; rfl

theorem scanSlots_hit {slots : List (Option Nat)} {x n i : Nat} (hn : 1 ≤ n)
    (h : slots[i]? = some none ∨ slots[i]? = some (some x)) : scanSlots slots x n i = some i := by
  obtain ⟨n, rfl⟩ : ∃ m, n = m + 1 := ⟨n - 1, by omega⟩
  unfold scanSlots
  rcases h with h | h
  · rw [h]
  · rw [h]; simp

/-- A number smaller than the size of a table with own slots is put into its slot. -/
theorem put_own {t : PyTable} (h : t.Own) {x : Nat} (hx : x ≤ t.mask) :
    (t.put x).Own ∧ (t.put x).mask = t.mask ∧ (∀ y, y ∈ (t.put x).toList ↔ y = x ∨ y ∈ t.toList) ∧
      (t.put x).used = if x ∈ t.toList then t.used else t.used + 1 := by
  have hlt : x < t.slots.length := by rw [h.len]; omega
  have hslot : t.slots[x]? = some none ∨ t.slots[x]? = some (some x) := by
    rw [List.getElem?_eq_getElem hlt]
    cases hv : t.slots[x] with
    | none => left; rfl
    | some y =>
      right
      have := h.own x y (by rw [List.getElem?_eq_getElem hlt, hv])
      simp [this]
  have hfind : findSlot t.slots t.mask x (t.mask + 1 + x) (x % (t.mask + 1)) x = some x := by
    rw [Nat.mod_eq_of_lt (by omega)]
    rw [show t.mask + 1 + x = t.mask + x + 1 by omega]
    unfold findSlot
    rw [scanSlots_hit (by split_ifs <;> omega) hslot]
  unfold PyTable.put
  rw [hfind]
  dsimp only
  rcases hslot with hs | hs
  · rw [if_pos hs]
    have hnot : x ∉ t.toList := by
      intro hm
      obtain ⟨i, hi⟩ := mem_toList.1 hm
      have := h.own i x hi
      obtain rfl : x = i := by omega
      rw [hs] at hi
      cases hi
    refine ⟨⟨?_, ?_, ?_⟩, rfl, ?_, ?_⟩
    · show (t.slots.set x (some x)).length = t.mask + 1
      rw [List.length_set, h.len]
    · intro i y hy
      rcases (getElem?_set_slot hs i y).1 hy with ⟨rfl, rfl⟩ | h'
      · omega
      · exact h.own i y h'
    · show t.used + 1 = ((t.slots.set x (some x)).filterMap id).length
      rw [length_set_slot hs, h.used]
      rfl
    · intro y
      rw [mem_toList, mem_toList]
      constructor
      · rintro ⟨i, hi⟩
        rcases (getElem?_set_slot hs i y).1 hi with ⟨rfl, rfl⟩ | h'
        · exact Or.inl rfl
        · exact Or.inr ⟨i, h'⟩
      · rintro (rfl | ⟨i, hi⟩)
        · exact ⟨y, (getElem?_set_slot hs y y).2 (Or.inl ⟨rfl, rfl⟩)⟩
        · exact ⟨i, (getElem?_set_slot hs i y).2 (Or.inr hi)⟩
    · rw [if_neg hnot]
  · rw [if_neg (by rw [hs]; simp)]
    have hin : x ∈ t.toList := mem_toList.2 ⟨x, hs⟩
    refine ⟨h, rfl, ?_, ?_⟩
    · intro y
      constructor
      · exact fun h => Or.inr h
      · rintro (rfl | h)
        · exact hin
        · exact h
    · rw [if_pos hin]

theorem foldl_put_own : ∀ (l : List Nat) {t : PyTable}, t.Own → (∀ x ∈ l, x ≤ t.mask) →
    (l.foldl PyTable.put t).Own ∧ (l.foldl PyTable.put t).mask = t.mask ∧
      ∀ y, y ∈ (l.foldl PyTable.put t).toList ↔ y ∈ l ∨ y ∈ t.toList := by
  intro l
  induction l with
  | nil => intro t h _; exact ⟨h, rfl, by simp⟩
  | cons x l ih =>
    intro t h hl
    obtain ⟨p1, p2, p3, _⟩ := put_own h (hl x List.mem_cons_self)
    obtain ⟨q1, q2, q3⟩ := ih p1 (fun y hy => by rw [p2]; exact hl y (List.mem_cons_of_mem _ hy))
    refine ⟨q1, q2.trans p2, fun y => ?_⟩
    rw [List.foldl_cons, q3, p3, List.mem_cons]
    tauto

theorem newSize_ge (m : Nat) : ∀ fuel s, s ≤ newSize m fuel s := by
  intro fuel
  induction fuel with
  | zero => intro s; exact le_rfl
  | succ n ih =>
    intro s
    unfold newSize
    split_ifs with h
    · exact le_trans (by omega) (ih (2 * s))
    · exact le_rfl

theorem newSize_gt (m : Nat) : ∀ fuel s, 1 ≤ s → m < s + fuel → m < newSize m fuel s := by
  intro fuel
  induction fuel with
  | zero => intro s _ h; exact h
  | succ n ih =>
    intro s hs h
    unfold newSize
    split_ifs with h1
    · exact ih (2 * s) (by omega) (by omega)
    · omega

/-- After growing, elements smaller than the new size have their own slots. -/
theorem resize_own (t : PyTable) (m : Nat) (h : ∀ x ∈ t.toList, x < newSize m (m + 1) 8) :
    (t.resize m).Own ∧ (t.resize m).mask + 1 = newSize m (m + 1) 8 ∧ ∀ y, y ∈ (t.resize m).toList ↔ y ∈ t.toList := by
  have h8 := newSize_ge m (m + 1) 8
  have hm : (PyTable.empty (newSize m (m + 1) 8)).mask = newSize m (m + 1) 8 - 1 := rfl
  obtain ⟨q1, q2, q3⟩ := foldl_put_own t.toList (own_empty (n := newSize m (m + 1) 8) (by omega)) (fun x hx => by
    have := h x hx; omega)
  refine ⟨q1, ?_, fun y => ?_⟩
  · show (List.foldl PyTable.put _ t.toList).mask + 1 = _
    rw [q2, hm]; omega
  · show y ∈ (List.foldl PyTable.put _ t.toList).toList ↔ _
    rw [q3, toList_empty]; simp

/-- Adding to a table with own slots. -/
theorem add_own {t : PyTable} (h : t.Own) {x : Nat} (hx : x ≤ t.mask) :
    (t.add x).Own ∧ t.mask ≤ (t.add x).mask ∧ ∀ y, y ∈ (t.add x).toList ↔ y = x ∨ y ∈ t.toList := by
  obtain ⟨p1, p2, p3, p4⟩ := put_own h hx
  unfold PyTable.add
  dsimp only
  split_ifs with h1 h2
  · exact ⟨p1, p2.ge, p3⟩
  all_goals
    push Not at h1
    have hm : ∀ m, t.mask ≤ m →
        ((t.put x).resize m).Own ∧ t.mask ≤ ((t.put x).resize m).mask ∧
          ∀ y, y ∈ ((t.put x).resize m).toList ↔ y = x ∨ y ∈ t.toList := by
      intro m hm
      have hgt := newSize_gt m (m + 1) 8 (by omega) (by omega)
      obtain ⟨r1, r2, r3⟩ := resize_own (t.put x) m (fun z hz => by
        obtain ⟨i, hi⟩ := mem_toList.1 hz
        have e := p1.own i z hi
        have := (List.getElem?_eq_some_iff.1 hi).1
        rw [p1.len, p2] at this
        omega)
      exact ⟨r1, by omega, fun y => by rw [r3, p3]⟩
    refine hm _ ?_
    omega

theorem foldl_add_own : ∀ (l : List Nat) {t : PyTable}, t.Own → (∀ x ∈ l, x ≤ t.mask) →
    (l.foldl PyTable.add t).Own ∧ t.mask ≤ (l.foldl PyTable.add t).mask ∧
      ∀ y, y ∈ (l.foldl PyTable.add t).toList ↔ y ∈ l ∨ y ∈ t.toList := by
  intro l
  induction l with
  | nil => intro t h _; exact ⟨h, le_rfl, by simp⟩
  | cons x l ih =>
    intro t h hl
    obtain ⟨p1, p2, p3⟩ := add_own h (hl x List.mem_cons_self)
    obtain ⟨q1, q2, q3⟩ := ih p1 (fun y hy => le_trans (hl y (List.mem_cons_of_mem _ hy)) p2)
    refine ⟨q1, le_trans p2 q2, fun y => ?_⟩
    rw [List.foldl_cons, q3, p3, List.mem_cons]
    tauto

/-- Sets of numbers smaller than 8 are iterated increasingly. -/
theorem ofList_small (l : List Nat) (h : ∀ x ∈ l, x < 8) :
    (PyTable.ofList l).Own ∧ ∀ y, y ∈ (PyTable.ofList l).toList ↔ y ∈ l := by
  obtain ⟨q1, _, q3⟩ := foldl_add_own l (own_empty (n := 8) (by omega)) (fun x hx => by
    have := h x hx
    show x ≤ 7
    omega)
  exact ⟨q1, fun y => by
    show y ∈ (List.foldl PyTable.add _ l).toList ↔ _
    rw [q3, toList_empty]; simp⟩

/-! ### The number of slots -/

theorem newSize_le (m : Nat) : ∀ fuel s, s ≤ 2 * m → newSize m fuel s ≤ 2 * m := by
  intro fuel
  induction fuel with
  | zero => intro s h; exact h
  | succ n ih =>
    intro s h
    unfold newSize
    split_ifs with h1
    · exact ih (2 * s) (by omega)
    · exact h

/-- The doubling of `set_table_resize` ends at the smallest power of two above the bound. -/
theorem newSize_log (m : Nat) (hm : 8 ≤ m) : newSize m (m + 1) 8 = 2 ^ (Nat.log 2 m + 1) := by
  obtain ⟨k, k1, k2⟩ := newSize_spec m (m + 1) 8 3 (by norm_num) (by omega) (by norm_num)
  have k3 := newSize_le m (m + 1) 8 (by omega)
  rw [k1] at k2 k3 ⊢
  congr 1
  obtain ⟨k, rfl⟩ : ∃ j, k = j + 1 := ⟨k - 1, by
    rcases Nat.eq_zero_or_pos k with rfl | h
    · simp at k2; omega
    · omega⟩
  rw [pow_succ] at k2 k3
  have := (Nat.log_eq_iff (b := 2) (m := k) (n := m) (Or.inr ⟨by omega, by omega⟩)).2 ⟨by omega, by rw [pow_succ]; omega⟩
  omega

/-- A table is never full. -/
theorem lt_tableSize (k : Nat) : 8 ≤ tableSize k ∧ k * 5 < (tableSize k - 1) * 3 := by
  induction k with
  | zero => decide
  | succ k ih =>
    unfold tableSize
    split_ifs with h1 h2
    · exact ⟨ih.1, h1⟩
    · have := Nat.lt_pow_succ_log_self (b := 2) (by omega) (2 * (k + 1))
      rw [Nat.succ_eq_add_one] at this
      omega
    · have := Nat.lt_pow_succ_log_self (b := 2) (by omega) (4 * (k + 1))
      rw [Nat.succ_eq_add_one] at this
      omega

theorem tableSize_mono : Monotone tableSize := by
  refine monotone_nat_of_le_succ fun k => ?_
  rw [tableSize]
  have h8 := lt_tableSize k
  split_ifs with h1 h2
  · exact le_rfl
  · have := Nat.lt_pow_succ_log_self (b := 2) (by omega) (2 * (k + 1))
    rw [Nat.succ_eq_add_one] at this
    omega
  · have := Nat.lt_pow_succ_log_self (b := 2) (by omega) (4 * (k + 1))
    rw [Nat.succ_eq_add_one] at this
    omega

/-! ### Slots given by remainders -/

/-- Every element sits in the slot given by its remainder. -/
def PyTable.Slotted (t : PyTable) : Prop := ∀ i x, t.slots[i]? = some (some x) → x % (t.mask + 1) = i

theorem slotted_empty (n : Nat) : (PyTable.empty n).Slotted := by
  intro i x h
  have := List.eq_of_mem_replicate (List.mem_of_getElem? h)
  cases this

theorem put_slotted {t : PyTable} (hg : t.Good) (h : t.Slotted) {x : Nat}
    (hx : ∀ y ∈ t.toList, y % (t.mask + 1) ≠ x % (t.mask + 1)) : (t.put x).Slotted := by
  have hlt : x % (t.mask + 1) < t.slots.length := by rw [hg.len]; exact Nat.mod_lt _ (by omega)
  have hs : t.slots[x % (t.mask + 1)]? = some none := by
    rw [List.getElem?_eq_getElem hlt]
    cases hv : t.slots[x % (t.mask + 1)] with
    | none => rfl
    | some y =>
      have hy : t.slots[x % (t.mask + 1)]? = some (some y) := by rw [List.getElem?_eq_getElem hlt, hv]
      exact absurd (h _ y hy) (hx y (mem_toList.2 ⟨_, hy⟩))
  have hfind : findSlot t.slots t.mask x (t.mask + 1 + x) (x % (t.mask + 1)) x = some (x % (t.mask + 1)) := by
    rw [show t.mask + 1 + x = t.mask + x + 1 by omega]
    unfold findSlot
    rw [scanSlots_hit (by split_ifs <;> omega) (Or.inl hs)]
  unfold PyTable.put
  rw [hfind]
  dsimp only
  rw [if_pos hs]
  intro i y hy
  rcases (getElem?_set_slot hs i y).1 hy with ⟨rfl, rfl⟩ | h'
  · rfl
  · exact h i y h'

theorem fold_slotted : ∀ (l : List Nat) {t : PyTable}, t.Good → t.Slotted → t.used + l.length ≤ t.mask + 1 → l.Nodup →
    (∀ x ∈ l, x ∉ t.toList) → (∀ x ∈ l, ∀ y, y ∈ l ∨ y ∈ t.toList → x % (t.mask + 1) = y % (t.mask + 1) → x = y) →
    (l.foldl PyTable.put t).Slotted := by
  intro l
  induction l with
  | nil => intro t _ h _ _ _ _; exact h
  | cons x l ih =>
    intro t hg h hu hnd hdis hinj
    rw [List.length_cons] at hu
    obtain ⟨g1, g2, g3, g4, g5, g6⟩ := hg.put (by omega) x
    obtain ⟨hxl, hnd⟩ := List.nodup_cons.1 hnd
    rw [List.foldl_cons]
    refine ih g1 (put_slotted hg h fun y hy e => ?_) (by omega) hnd (fun y hy hm => ?_) (fun a ha b hb e => ?_)
    · exact hdis x List.mem_cons_self (hinj x List.mem_cons_self y (Or.inr hy) e.symm ▸ hy)
    · rcases (g3 y).1 hm with rfl | hm
      · exact hxl hy
      · exact hdis y (List.mem_cons_of_mem _ hy) hm
    · rw [g2] at e
      refine hinj a (List.mem_cons_of_mem _ ha) b ?_ e
      rcases hb with hb | hb
      · exact Or.inl (List.mem_cons_of_mem _ hb)
      · rcases (g3 b).1 hb with rfl | hb
        · exact Or.inl List.mem_cons_self
        · exact Or.inr hb

/-- Numbers with different remainders. -/
def Apart (n : Nat) (l : List Nat) : Prop := ∀ x ∈ l, ∀ y ∈ l, x % n = y % n → x = y

/-- One insertion of a new element. -/
theorem add_new {t : PyTable} (hg : t.Good) (hm : t.mask + 1 = tableSize t.used) (hs : Apart (t.mask + 1) t.toList → t.Slotted)
    {x : Nat} (hx : x ∉ t.toList) :
    (t.add x).Good ∧ (t.add x).used = t.used + 1 ∧ (t.add x).mask + 1 = tableSize (t.add x).used ∧
      (Apart ((t.add x).mask + 1) (t.add x).toList → (t.add x).Slotted) := by
  have h5 := lt_tableSize t.used
  obtain ⟨g1, g2, g3, g4, g5, g6⟩ := hg.put (by omega) x
  have g6 := g6 hx
  have e : tableSize (t.used + 1) = if (t.used + 1) * 5 < (tableSize t.used - 1) * 3 then tableSize t.used
    else 2 ^ (Nat.log 2 (if 50000 < t.used + 1 then 2 * (t.used + 1) else 4 * (t.used + 1)) + 1) := rfl
  by_cases hc : (t.used + 1) * 5 < (tableSize t.used - 1) * 3
  · have ea : t.add x = t.put x := by
      unfold PyTable.add
      dsimp only
      rw [if_pos (Or.inr (by rw [g6, g2]; omega))]
    rw [ea]
    rw [if_pos hc] at e
    refine ⟨g1, g6, by rw [g2, g6, e, hm], fun ha => ?_⟩
    rw [g2] at ha
    have ht : t.Slotted := hs fun a ha' b hb' => ha a ((g3 a).2 (Or.inr ha')) b ((g3 b).2 (Or.inr hb'))
    refine put_slotted hg ht fun y hy e => hx ?_
    exact ha y ((g3 y).2 (Or.inr hy)) x ((g3 x).2 (Or.inl rfl)) e ▸ hy
  · rw [if_neg hc] at e
    have hk : 4 ≤ t.used := by omega
    generalize hmm : (if 50000 < t.used + 1 then 2 * (t.used + 1) else 4 * (t.used + 1)) = m at e
    have ea : t.add x = (t.put x).resize m := by
      unfold PyTable.add
      dsimp only
      rw [if_neg (by rw [g6, g2]; omega), g6, Nat.mul_comm (t.used + 1) 2, Nat.mul_comm (t.used + 1) 4, hmm]
    have hm2 : 2 * (t.used + 1) ≤ m := by rw [← hmm]; split_ifs <;> omega
    have hn := newSize_log m (by omega)
    have hlt := newSize_gt m (m + 1) 8 (by omega) (by omega)
    rw [ea]
    unfold PyTable.resize
    obtain ⟨r1, r2, r3⟩ := good_rebuild g1 hn (by omega)
    obtain ⟨e1, e2⟩ := good_empty (Nat.log 2 m + 1)
    rw [hn] at hlt ⊢
    have hz : (PyTable.empty (2 ^ (Nat.log 2 m + 1))).used = 0 := rfl
    have hlen : (t.put x).toList.length = t.used + 1 := by rw [← g1.used, g6]
    have hperm : ((t.put x).toList.foldl PyTable.put (PyTable.empty (2 ^ (Nat.log 2 m + 1)))).toList.Perm (t.put x).toList := by
      rw [List.perm_ext_iff_of_nodup]
      · intro y; rw [← hn]; exact r2 y
      · rw [← hn]; exact r1.nodup
      · exact g1.nodup
    obtain ⟨f1, f2, f3, f4⟩ := good_fold (t.put x).toList e1 (by rw [hz, hlen]; omega)
    have hu : ((t.put x).toList.foldl PyTable.put (PyTable.empty (2 ^ (Nat.log 2 m + 1)))).used = t.used + 1 := by
      rw [f1.used, hperm.length_eq, hlen]
    refine ⟨f1, hu, by rw [f2, e2, hu, e], fun ha => ?_⟩
    rw [f2] at ha
    refine fold_slotted _ e1 (slotted_empty _) (by rw [hz, hlen]; omega) g1.nodup (fun y _ => by rw [toList_empty]; simp) ?_
    intro a ha' b hb' e
    rw [toList_empty] at hb'
    exact ha a (hperm.mem_iff.2 ha') b (hperm.mem_iff.2 (by simpa using hb')) e

/-- A set of different elements: the number of slots depends on the number of elements only; if the remainders are different, they tell
the slots. -/
theorem ofList_slots (l : List Nat) (hnd : l.Nodup) :
    (PyTable.ofList l).toList.Perm l ∧ (PyTable.ofList l).mask + 1 = tableSize l.length ∧
      (Apart (tableSize l.length) l → (PyTable.ofList l).Slotted) := by
  have key : ∀ (l : List Nat) (t : PyTable), l.Nodup → (∀ x ∈ l, x ∉ t.toList) → t.Good → t.mask + 1 = tableSize t.used →
      (Apart (t.mask + 1) t.toList → t.Slotted) →
      (l.foldl PyTable.add t).mask + 1 = tableSize (l.foldl PyTable.add t).used ∧
        (Apart ((l.foldl PyTable.add t).mask + 1) (l.foldl PyTable.add t).toList → (l.foldl PyTable.add t).Slotted) := by
    intro l
    induction l with
    | nil => intro t _ _ _ h1 h2; exact ⟨h1, h2⟩
    | cons x l ih =>
      intro t hnd hdis hg hm hs
      obtain ⟨hxl, hnd⟩ := List.nodup_cons.1 hnd
      obtain ⟨a1, a2, a3, a4⟩ := add_new hg hm hs (hdis x List.mem_cons_self)
      have h5 := lt_tableSize t.used
      obtain ⟨_, _, a5⟩ := hg.add (by omega) x
      refine ih (t.add x) hnd (fun y hy hm => ?_) a1 a3 a4
      rcases (a5 y).1 hm with rfl | hm
      · exact hxl hy
      · exact hdis y (List.mem_cons_of_mem _ hy) hm
  obtain ⟨g1, g2⟩ := good_ofList l
  have hp : (PyTable.ofList l).toList.Perm l := (List.perm_ext_iff_of_nodup g1.nodup hnd).2 g2
  have hu : (PyTable.ofList l).used = l.length := by rw [g1.used, hp.length_eq]
  obtain ⟨k1, k2⟩ := key l (PyTable.empty 8) hnd (fun x _ => by rw [toList_empty]; simp) (good_empty 3).1 rfl
    (fun _ => slotted_empty 8)
  change (PyTable.ofList l).mask + 1 = tableSize (PyTable.ofList l).used at k1
  rw [hu] at k1
  refine ⟨hp, k1, fun ha => k2 ?_⟩
  change Apart ((PyTable.ofList l).mask + 1) (PyTable.ofList l).toList
  rw [k1]
  exact fun a ha' b hb' => ha a (hp.mem_iff.1 ha') b (hp.mem_iff.1 hb')

/-- Different numbers smaller than the number of slots are iterated increasingly. -/
theorem ofList_increasing (l : List Nat) (hnd : l.Nodup) (h : ∀ x ∈ l, x < tableSize l.length) :
    (PyTable.ofList l).toList.Pairwise (· < ·) := by
  obtain ⟨o1, o2, o3⟩ := ofList_slots l hnd
  have hs := o3 fun a ha b hb e => by rwa [Nat.mod_eq_of_lt (h a ha), Nat.mod_eq_of_lt (h b hb)] at e
  have : OwnFrom 0 (PyTable.ofList l).slots := by
    intro i x hx
    have e := hs i x hx
    rw [o2, Nat.mod_eq_of_lt (h x (o1.mem_iff.1 (mem_toList.2 ⟨i, hx⟩)))] at e
    omega
  exact this.sorted.1

/-- A multiple of the number of slots comes first, if the remainders are different. -/
theorem ofList_first (l : List Nat) (hnd : l.Nodup) (ha : Apart (tableSize l.length) l) {x : Nat} (hx : x ∈ l)
    (h0 : x % tableSize l.length = 0) : (PyTable.ofList l).toList.head? = some x := by
  obtain ⟨o1, o2, o3⟩ := ofList_slots l hnd
  obtain ⟨i, hi⟩ := mem_toList.1 (o1.mem_iff.2 hx)
  have e := o3 ha i x hi
  rw [o2, h0] at e
  subst e
  unfold PyTable.toList
  cases hl : (PyTable.ofList l).slots with
  | nil => rw [hl] at hi; simp at hi
  | cons o r =>
    rw [hl] at hi
    simp only [List.getElem?_cons_zero, Option.some.injEq] at hi
    subst hi
    simp

/-- An intersection is the set of the elements that both operands have. -/
theorem inter_ofList (a b : List Nat) : ∃ l : List Nat, l.Nodup ∧ (∀ y, y ∈ l ↔ y ∈ a ∧ y ∈ b) ∧
    SetSem.cpython.inter a b = (PyTable.ofList l).toList := by
  obtain ⟨a1, a2⟩ := good_ofList a
  obtain ⟨b1, b2⟩ := good_ofList b
  show ∃ l : List Nat, l.Nodup ∧ (∀ y, y ∈ l ↔ y ∈ a ∧ y ∈ b) ∧
    ((PyTable.ofList a).inter (PyTable.ofList b)).toList = (PyTable.ofList l).toList
  unfold PyTable.inter
  split_ifs with hu
  · exact ⟨_, a1.nodup.filter _, fun y => by simp only [List.mem_filter, decide_eq_true_eq, a2, b2], rfl⟩
  · exact ⟨_, b1.nodup.filter _, fun y => by simp only [List.mem_filter, decide_eq_true_eq, a2, b2]; tauto, rfl⟩

end TJ
