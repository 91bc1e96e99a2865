/-
Quarter turns of blocks that are not square: the index computed for a rotated determinant can lie outside the basis.
-/
import Verif.Lemmas.EmbedRot
import Verif.Lemmas.SpinPos
import Mathlib.Data.Nat.Choose.Sum

namespace TJ

open Finset

/-- Sites that are all beyond the last combination get an index beyond all combinations. -/
theorem hash_beyond {n : Nat} {l : List Int} (h0 : l ≠ []) (hn : l.length ≤ n) (hl : ∀ x ∈ l, (n : Int) - l.length + 1 ≤ x) :
    n.choose l.length ≤ getDistanceHashInt n [] l := by
  obtain ⟨a, t, rfl⟩ := List.exists_cons_of_ne_nil h0
  have ha := hl a (by simp)
  simp only [List.length_cons] at hn ha ⊢
  set k := t.length
  unfold getDistanceHashInt
  rw [if_neg (by simp)]
  refine le_trans ?_ (Nat.le_add_right _ _)
  simp only [List.map_nil, List.sum_nil, List.map_cons, List.zipWith_cons_cons, List.getD_cons_zero, List.length_cons, List.length_nil]
  have e1 : (n + 0).choose (k + 1) = ∑ i ∈ range (n - k), (n - 1 - i).choose k := by
    have := Nat.sum_Icc_choose (n - 1) k
    rw [Nat.sub_add_cancel (by omega)] at this
    rw [Nat.add_zero, ← this]
    symm
    refine sum_bij (fun i _ => n - 1 - i) ?_ ?_ ?_ ?_
    · intro i hi
      have := mem_range.1 hi
      exact mem_Icc.2 ⟨by omega, by omega⟩
    · intro i hi j hj h
      have := mem_range.1 hi
      have := mem_range.1 hj
      omega
    · intro j hj
      have := mem_Icc.1 hj
      exact ⟨n - 1 - j, mem_range.2 (by omega), by omega⟩
    · intro i _
      rfl
  rw [Nat.add_zero] at e1
  rw [e1]
  unfold rangeInt
  rw [List.map_map]
  have e2 : ((a - ((0 : Nat) : Int) - 0).toNat) = (n - k) + ((a - ((0 : Nat) : Int) - 0).toNat - (n - k)) := by omega
  rw [e2, List.range_add, List.map_append, List.sum_append]
  refine le_trans (le_of_eq ?_) (Nat.le_add_right _ _)
  have e3 : ∀ (f : Nat → Nat) (m : Nat), ∑ i ∈ range m, f i = ((List.range m).map f).sum := by
    intro f m
    induction m with
    | zero => simp
    | succ m ih => rw [List.range_succ, List.map_append, List.sum_append, sum_range_succ, ih]; simp
  rw [e3]
  congr 1
  refine List.map_congr_left fun i hi => ?_
  have := List.mem_range.1 hi
  simp only [Function.comp_apply]
  unfold pyComb
  rw [if_neg (by push_cast; omega)]
  congr 1 <;> push_cast <;> omega

theorem take_reorderInt (c : Config) {l : List Int} (hl : c.nholes + c.nbeta ≤ l.length) :
    (reorderInt c l).take c.nholes = pySortInt (l.take c.nholes) ∧
      ((reorderInt c l).drop c.nholes).take c.nbeta = pySortInt ((l.drop c.nholes).take c.nbeta) := by
  have h1 : (pySortInt (l.take c.nholes)).length = c.nholes := by
    unfold pySortInt
    rw [List.length_insertionSort, List.length_take]
    omega
  have h2 : (pySortInt ((l.drop c.nholes).take c.nbeta)).length = c.nbeta := by
    unfold pySortInt
    rw [List.length_insertionSort, List.length_take, List.length_drop]
    omega
  unfold reorderInt
  constructor
  · rw [List.append_assoc, List.take_left' h1]
  · rw [List.append_assoc, List.drop_left' h1, List.take_left' h2]

theorem mem_pySortInt {l : List Int} {x : Int} : x ∈ pySortInt l ↔ x ∈ l := by
  unfold pySortInt
  exact (List.perm_insertionSort _ l).mem_iff

theorem length_pySortInt (l : List Int) : (pySortInt l).length = l.length := by
  unfold pySortInt
  exact List.length_insertionSort _ l

/-- A list of "sites" whose holes, or whose down spins if there is no hole, are all beyond the last combination gets an index outside
the basis. -/
theorem index_beyond (c : Config) {l : List Int} (hl : l.length = c.nsites) (hn : c.nholes + c.nbeta ≤ c.nsites)
    (hp : 1 ≤ c.nholes + c.nbeta)
    (hh : ∀ x ∈ l.take c.nholes, (c.nsites : Int) - c.nholes + 1 ≤ x)
    (hb : c.nholes = 0 → ∀ x ∈ l.take c.nbeta, (c.nsites : Int) - c.nbeta + 1 ≤ x) :
    c.nsites.choose c.nholes * (c.nsites - c.nholes).choose c.nbeta ≤ getIndexInt c (reorderInt c l) := by
  have hl' : (reorderInt c l).length = c.nsites := by rw [(perm_reorderInt c l).length_eq, hl]
  obtain ⟨t1, t2⟩ := take_reorderInt c (l := l) (by omega)
  obtain ⟨t3, t4⟩ := take_reorderInt c (l := reorderInt c l) (by omega)
  have hlh : ((reorderInt c (reorderInt c l)).take c.nholes).length = c.nholes := by
    rw [t3, length_pySortInt, t1, length_pySortInt, List.length_take]
    omega
  have hlb : (((reorderInt c (reorderInt c l)).drop c.nholes).take c.nbeta).length = c.nbeta := by
    rw [t4, length_pySortInt, t2, length_pySortInt, List.length_take, List.length_drop]
    omega
  have hmh : ∀ x ∈ (reorderInt c (reorderInt c l)).take c.nholes, (c.nsites : Int) - c.nholes + 1 ≤ x := by
    intro x hx
    rw [t3, mem_pySortInt, t1, mem_pySortInt] at hx
    exact hh x hx
  have ec : pyComb ((c.nsites : Int) - c.nholes) c.nbeta = (c.nsites - c.nholes).choose c.nbeta := by
    unfold pyComb
    rw [if_neg (by omega)]
    congr 1
    omega
  unfold getIndexInt
  simp only [ec]
  rcases Nat.eq_zero_or_pos c.nholes with h0 | h0
  · have hmb : ∀ x ∈ ((reorderInt c (reorderInt c l)).drop c.nholes).take c.nbeta, (c.nsites : Int) - c.nbeta + 1 ≤ x := by
      intro x hx
      rw [t4, mem_pySortInt, t2, mem_pySortInt, h0, List.drop_zero] at hx
      exact hb h0 x hx
    have he : (reorderInt c (reorderInt c l)).take c.nholes = [] := by rw [h0]; rfl
    rw [he]
    have := hash_beyond (n := c.nsites) (l := ((reorderInt c (reorderInt c l)).drop c.nholes).take c.nbeta)
      (by intro e; rw [e] at hlb; simp at hlb; omega) (by omega) (by rw [hlb]; exact hmb)
    rw [hlb] at this
    rw [h0, Nat.choose_zero_right, one_mul, Nat.sub_zero, ← h0]
    exact this.trans (Nat.le_add_left _ _)
  · have := hash_beyond (n := c.nsites) (l := (reorderInt c (reorderInt c l)).take c.nholes)
      (by intro e; rw [e] at hlh; simp at hlh; omega) (by omega) (by rw [hlh]; exact hmh)
    rw [hlh] at this
    exact (Nat.mul_le_mul_right _ this).trans (Nat.le_add_right _ _)

/-- The other quarter turn, the right one for a rectangle: site `(x, y)` to `(y, w - 1 - x)` of the `h` by `w` rectangle. -/
theorem beyond_turn {w h : Nat} (hw : 1 ≤ w) (hh : 1 ≤ h) (hne : w ≠ h) :
    ∃ q : Nat, (q = 1 ∧ w < h ∨ q = 3 ∧ h < w) ∧ ∃ g : Fin (w * h) ≃ Fin (w * h), ∀ s : Fin (w * h),
      ((g s : Nat) : Int) + 1 ≤ (if q = 1 then rot1 w h s else rot3 w h s) := by
  have hx : ∀ s : Fin (w * h), s.val % w < w := fun s => Nat.mod_lt _ (by omega)
  have hy : ∀ s : Fin (w * h), s.val / w < h := fun s => Nat.div_lt_of_lt_mul s.2
  have hs : ∀ s s' : Fin (w * h), s.val % w = s'.val % w → s.val / w = s'.val / w → s = s' := by
    intro s s' h1 h2
    have e1 := Nat.div_add_mod s.val w
    have e2 := Nat.div_add_mod s'.val w
    exact Fin.ext (by rw [← e1, ← e2, h1, h2])
  have hpack : ∀ a b : Nat, a < w → b < h → h * a + b < w * h := by
    intro a b ha hb
    have := Nat.mul_le_mul_left h (show a + 1 ≤ w by omega)
    rw [Nat.mul_add, Nat.mul_one, Nat.mul_comm h w] at this
    omega
  have hinj : ∀ a b a' b' : Nat, b < h → b' < h → h * a + b = h * a' + b' → a = a' ∧ b = b' := by
    intro a b a' b' hb hb' e
    have e1 : (h * a + b) / h = a := by rw [Nat.mul_add_div (by omega), Nat.div_eq_of_lt hb, Nat.add_zero]
    have e2 : (h * a' + b') / h = a' := by rw [Nat.mul_add_div (by omega), Nat.div_eq_of_lt hb', Nat.add_zero]
    have : a = a' := by rw [← e1, ← e2, e]
    subst this
    exact ⟨rfl, by omega⟩
  have hz : ∀ s : Fin (w * h), h - 1 - s.val / w < h := fun s => lt_of_le_of_lt (Nat.sub_le _ _) (by omega)
  rcases Nat.lt_or_gt_of_ne hne with hlt | hlt
  · refine ⟨1, Or.inl ⟨rfl, hlt⟩, ?_⟩
    let f : Fin (w * h) → Fin (w * h) := fun s => ⟨h * (w - 1 - s.val % w) + s.val / w, hpack _ _ (by omega) (hy s)⟩
    have hf : Function.Injective f := by
      intro s s' e
      have e := congrArg Fin.val e
      obtain ⟨e1, e2⟩ := hinj _ _ _ _ (hy s) (hy s') e
      have := hx s
      have := hx s'
      exact hs s s' (by omega) e2
    refine ⟨Equiv.ofBijective f (Finite.injective_iff_bijective.1 hf), fun s => ?_⟩
    rw [if_pos rfl]
    show ((h * (w - 1 - s.val % w) + s.val / w : Nat) : Int) + 1 ≤ _
    unfold rot1
    have := hx s
    have e : ((w - 1 - s.val % w : Nat) : Int) = w - 1 - (s.val % w : Nat) := by omega
    push_cast [e]
    have h1 : (0 : Int) ≤ ((s.val % w : Nat) : Int) := Int.natCast_nonneg _
    push_cast at h1
    have h2 : (w : Int) + 1 ≤ h := by exact_mod_cast hlt
    nlinarith
  · refine ⟨3, Or.inr ⟨rfl, hlt⟩, ?_⟩
    let f : Fin (w * h) → Fin (w * h) := fun s => ⟨h * (s.val % w) + (h - 1 - s.val / w), hpack _ _ (hx s) (hz s)⟩
    have hf : Function.Injective f := by
      intro s s' e
      have e := congrArg Fin.val e
      obtain ⟨e1, e2⟩ := hinj _ _ _ _ (hz s) (hz s') e
      have := hy s
      have := hy s'
      exact hs s s' e1 (by omega)
    refine ⟨Equiv.ofBijective f (Finite.injective_iff_bijective.1 hf), fun s => ?_⟩
    rw [if_neg (by decide)]
    show ((h * (s.val % w) + (h - 1 - s.val / w) : Nat) : Int) + 1 ≤ _
    unfold rot3
    have := hy s
    have e : ((h - 1 - s.val / w : Nat) : Int) = h - 1 - (s.val / w : Nat) := by omega
    push_cast [e]
    have h2 : (h : Int) + 1 ≤ w := by exact_mod_cast hlt
    have h3 := mul_comm (h : Int) ((s.val : Int) % w)
    linarith

end TJ
