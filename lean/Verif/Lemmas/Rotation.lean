/-
Relabelling of sites, and the quarter turns of the square.
-/
import Verif.Lemmas.Linear
import Verif.Lemmas.Det
import Verif.Lemmas.Basis
import Mathlib.Algebra.Group.Basic
import Mathlib.GroupTheory.OrderOfElement

namespace TJ

/-! ### Relabelling -/

theorem ValidDet.map {n : Nat} {det : List Nat} (hv : ValidDet n det) {π : Nat → Nat} (hr : ∀ s < n, π s < n)
    (hi : ∀ s < n, ∀ t < n, π s = π t → s = t) : ValidDet n (det.map π) := by
  have hnd : (det.map π).Nodup :=
    hv.nodup.map_on (fun x hx y hy h => hi x (hv.mem.1 hx) y (hv.mem.1 hy) h)
  have hsub : (det.map π).Subperm (List.range n) := by
    refine hnd.subperm ?_
    intro x hx
    obtain ⟨y, hy, rfl⟩ := List.mem_map.1 hx
    exact List.mem_range.2 (hr y (hv.mem.1 hy))
  exact hsub.perm_of_length_le (by rw [List.length_map, hv.length, List.length_range])

theorem occ_map {n h b : Nat} {det : List Nat} (hv : ValidDet n det) {π : Nat → Nat}
    (hi : ∀ s < n, ∀ t < n, π s = π t → s = t) {s : Nat} (hs : s < n) :
    occ h b (det.map π) (π s) = occ h b det s := by
  have key : ∀ l : List Nat, (∀ x ∈ l, x < n) → (π s ∈ l.map π ↔ s ∈ l) := by
    intro l hl
    rw [List.mem_map]
    constructor
    · rintro ⟨t, ht, e⟩
      rwa [← hi t (hl t ht) s hs e]
    · exact fun h => ⟨s, h, rfl⟩
  unfold occ
  rw [← List.map_take, ← List.map_drop, ← List.map_take]
  simp only [key _ (fun x hx => hv.mem.1 (List.mem_of_mem_take hx)),
    key _ (fun x hx => hv.mem.1 (List.mem_of_mem_drop (List.mem_of_mem_take hx)))]

/-- An injective map of the sites is onto. -/
theorem exists_preimage {n : Nat} {π : Nat → Nat} (hr : ∀ s < n, π s < n)
    (hi : ∀ s < n, ∀ t < n, π s = π t → s = t) {t : Nat} (ht : t < n) : ∃ s < n, π s = t := by
  have hv : ValidDet n (List.range n) := List.Perm.refl _
  have := (hv.map hr hi).mem.2 ht
  obtain ⟨s, hs, e⟩ := List.mem_map.1 this
  exact ⟨s, List.mem_range.1 hs, e⟩

theorem perm_reorderInt (c : Config) (l : List Int) : (reorderInt c l).Perm l := by
  unfold reorderInt pySortInt
  have : l.take c.nholes ++ (l.drop c.nholes).take c.nbeta ++ l.drop (c.nholes + c.nbeta) = l := by
    rw [List.append_assoc, ← List.drop_drop, List.take_append_drop, List.take_append_drop]
  conv_rhs => rw [← this]
  exact ((List.perm_insertionSort _ _).append (List.perm_insertionSort _ _)).append (List.perm_insertionSort _ _)

theorem reorderInt_map (c : Config) (l : List Nat) :
    reorderInt c (l.map (fun (s : Nat) => (s : Int))) = (reorder c l).map (fun (s : Nat) => (s : Int)) := by
  have hsort : ∀ l : List Nat, pySortInt (l.map (fun (s : Nat) => (s : Int))) = (pySort l).map (fun (s : Nat) => (s : Int)) := by
    intro l
    unfold pySortInt pySort
    rw [List.map_insertionSort (r := (· ≤ ·)) (s := (· ≤ ·))]
    intro a _ b _
    exact Int.ofNat_le.symm
  unfold reorderInt reorder holesOf betaOf alphaOf
  rw [← List.map_take, ← List.map_drop, ← List.map_take, ← List.map_drop, hsort, hsort, hsort, List.map_append,
    List.map_append]

/-! ### Quarter turns -/

/-- The square with corners (0,0) and (L-1,L-1). -/
def InBox (L : Nat) (p : Pt) : Prop := 0 ≤ p.1 ∧ p.1 < L ∧ 0 ≤ p.2 ∧ p.2 < L

theorem turn_apply (L : Nat) (p : Pt) : turn L p = (p.2, (L : Int) - 1 - p.1) := rfl

theorem turn_four (L : Nat) : turn L ^ 4 = 1 := by
  ext p <;> simp [pow_succ, turn_apply, Equiv.Perm.mul_apply]

theorem turn_zpow_emod (L : Nat) (k : Int) : turn L ^ k = turn L ^ (k % 4).toNat := by
  have := zpow_eq_zpow_emod (x := turn L) k (n := 4) (by exact_mod_cast turn_four L)
  rw [this]
  conv_lhs => rw [← Int.toNat_of_nonneg (Int.emod_nonneg k (by decide : (4 : Int) ≠ 0)), zpow_natCast]

/-- Induction on the number of quarter turns. -/
theorem turn_induction {L : Nat} {P : Equiv.Perm Pt → Prop} (h1 : P 1) (hs : ∀ f, P f → P (turn L * f)) (k : Int) :
    P (turn L ^ k) := by
  rw [turn_zpow_emod]
  generalize (k % 4).toNat = m
  induction m with
  | zero => simpa using h1
  | succ m ih => rw [pow_succ']; exact hs _ ih

theorem inBox_turn {L : Nat} {p : Pt} (h : InBox L p) : InBox L (turn L p) := by
  unfold InBox at *
  rw [turn_apply]
  simp only
  omega

theorem inBox_zpow {L : Nat} (k : Int) {p : Pt} (h : InBox L p) : InBox L ((turn L ^ k) p) :=
  turn_induction (P := fun f => InBox L (f p)) h (fun _ hf => inBox_turn hf) k

theorem near_turn (L : Nat) (p q : Pt) : Near (turn L p) (turn L q) ↔ Near p q := by
  unfold Near
  rw [turn_apply, turn_apply]
  simp only
  omega

theorem near_zpow (L : Nat) (k : Int) (p q : Pt) : Near ((turn L ^ k) p) ((turn L ^ k) q) ↔ Near p q :=
  turn_induction (P := fun f => (Near (f p) (f q) ↔ Near p q)) Iff.rfl
    (fun f hf => (near_turn L (f p) (f q)).trans hf) k

theorem aligned_turn (L : Nat) (p q r : Pt) : Aligned (turn L p) (turn L q) (turn L r) ↔ Aligned p q r := by
  unfold Aligned
  rw [turn_apply, turn_apply, turn_apply]
  simp only
  omega

theorem aligned_zpow (L : Nat) (k : Int) (p q r : Pt) :
    Aligned ((turn L ^ k) p) ((turn L ^ k) q) ((turn L ^ k) r) ↔ Aligned p q r :=
  turn_induction (P := fun f => (Aligned (f p) (f q) (f r) ↔ Aligned p q r)) Iff.rfl
    (fun f hf => (aligned_turn L (f p) (f q) (f r)).trans hf) k

theorem sameLine_turn (L : Nat) (p q : Pt) : ((turn L p).1 = (turn L q).1 ∨ (turn L p).2 = (turn L q).2) ↔
    (p.1 = q.1 ∨ p.2 = q.2) := by
  rw [turn_apply, turn_apply]
  omega

theorem sameLine_zpow (L : Nat) (k : Int) (p q : Pt) :
    (((turn L ^ k) p).1 = ((turn L ^ k) q).1 ∨ ((turn L ^ k) p).2 = ((turn L ^ k) q).2) ↔ (p.1 = q.1 ∨ p.2 = q.2) :=
  turn_induction (P := fun f => ((f p).1 = (f q).1 ∨ (f p).2 = (f q).2) ↔ (p.1 = q.1 ∨ p.2 = q.2)) Iff.rfl
    (fun f h => (sameLine_turn L (f p) (f q)).trans h) k

theorem diagonal_turn (L : Nat) (p q : Pt) : Diagonal (turn L p) (turn L q) ↔ Diagonal p q := by
  unfold Diagonal
  rw [turn_apply, turn_apply]
  omega

theorem diagonal_zpow (L : Nat) (k : Int) (p q : Pt) :
    Diagonal ((turn L ^ k) p) ((turn L ^ k) q) ↔ Diagonal p q :=
  turn_induction (P := fun f => Diagonal (f p) (f q) ↔ Diagonal p q) Iff.rfl
    (fun f h => (diagonal_turn L (f p) (f q)).trans h) k

/-- The site at a position. -/
def siteAt (L : Nat) (p : Pt) : Nat := p.1.toNat + L * p.2.toNat

theorem inBox_gridPos {L s : Nat} (hs : s < L * L) : InBox L (gridPos L s) := by
  have hL : 0 < L := by
    rcases Nat.eq_zero_or_pos L with h | h
    · subst h; simp at hs
    · exact h
  have h1 := Nat.mod_lt s hL
  have h2 := Nat.div_lt_of_lt_mul hs
  exact ⟨Int.natCast_nonneg _, Int.ofNat_lt.2 h1, Int.natCast_nonneg _, Int.ofNat_lt.2 h2⟩

theorem siteAt_gridPos (L s : Nat) : siteAt L (gridPos L s) = s := by
  unfold siteAt gridPos
  simp only [Int.toNat_natCast]
  exact Nat.mod_add_div s L

theorem siteAt_lt {L : Nat} {p : Pt} (h : InBox L p) : siteAt L p < L * L := by
  unfold InBox at h
  unfold siteAt
  have h1 : p.1.toNat < L := by omega
  have h2 : p.2.toNat + 1 ≤ L := by omega
  have := Nat.mul_le_mul_left L h2
  rw [Nat.mul_add] at this
  omega

theorem gridPos_siteAt {L : Nat} {p : Pt} (h : InBox L p) : gridPos L (siteAt L p) = p := by
  have h1 : p.1.toNat < L := by unfold InBox at h; omega
  unfold gridPos siteAt
  rw [Nat.add_mul_mod_self_left, Nat.mod_eq_of_lt h1, Nat.add_mul_div_left _ _ (by omega), Nat.div_eq_of_lt h1]
  unfold InBox at h
  apply Prod.ext <;> simp only <;> omega

/-- The site that receives the content of site `s` after `k` quarter turns. -/
def rotSite (L : Nat) (k : Int) (s : Nat) : Nat := siteAt L ((turn L ^ k) (gridPos L s))

theorem rotSite_lt {L : Nat} (k : Int) {s : Nat} (hs : s < L * L) : rotSite L k s < L * L :=
  siteAt_lt (inBox_zpow k (inBox_gridPos hs))

theorem gridPos_rotSite {L : Nat} (k : Int) {s : Nat} (hs : s < L * L) :
    gridPos L (rotSite L k s) = (turn L ^ k) (gridPos L s) :=
  gridPos_siteAt (inBox_zpow k (inBox_gridPos hs))

theorem rotSite_inj {L : Nat} (k : Int) {s t : Nat} (hs : s < L * L) (ht : t < L * L)
    (h : rotSite L k s = rotSite L k t) : s = t := by
  have := congrArg (gridPos L) h
  rw [gridPos_rotSite k hs, gridPos_rotSite k ht] at this
  rw [← siteAt_gridPos L s, (turn L ^ k).injective this, siteAt_gridPos]

theorem rotSite_comp {L : Nat} (k m : Int) {s : Nat} (hs : s < L * L) :
    rotSite L k (rotSite L m s) = rotSite L (k + m) s := by
  show siteAt L ((turn L ^ k) (gridPos L (rotSite L m s))) = siteAt L ((turn L ^ (k + m)) (gridPos L s))
  rw [gridPos_rotSite m hs, zpow_add, Equiv.Perm.mul_apply]

theorem rotSite_zero {L : Nat} {k : Int} (hk : k % 4 = 0) (s : Nat) : rotSite L k s = s := by
  unfold rotSite
  rw [turn_zpow_emod, hk]
  exact siteAt_gridPos L s

theorem rot1_eq {L : Nat} {k : Int} (hk : k % 4 = 1) {s : Nat} (hs : s < L * L) : rot1 L L s = (rotSite L k s : Nat) := by
  have hb := inBox_zpow k (inBox_gridPos hs)
  have e : (turn L ^ k) (gridPos L s) = (((s / L : Nat) : Int), (L : Int) - 1 - (s % L : Nat)) := by
    rw [turn_zpow_emod, hk]; rfl
  unfold rotSite
  rw [e] at hb ⊢
  unfold InBox at hb
  simp only at hb
  unfold rot1 siteAt
  simp only [Int.toNat_natCast]
  rw [Nat.cast_add, Nat.cast_mul, Int.toNat_of_nonneg hb.2.2.1, Int.add_comm]

theorem rot3_eq {L : Nat} {k : Int} (hk : k % 4 = 3) {s : Nat} (hs : s < L * L) : rot3 L L s = (rotSite L k s : Nat) := by
  have hb := inBox_zpow k (inBox_gridPos hs)
  have e : (turn L ^ k) (gridPos L s) = ((L : Int) - 1 - (s / L : Nat), ((s % L : Nat) : Int)) := by
    rw [turn_zpow_emod, hk]
    show (turn L ^ 3) _ = _
    rw [pow_succ, pow_succ, pow_one, Equiv.Perm.mul_apply, Equiv.Perm.mul_apply, turn_apply, turn_apply, turn_apply]
    unfold gridPos
    apply Prod.ext <;> simp only <;> omega
  unfold rotSite
  rw [e] at hb ⊢
  unfold InBox at hb
  simp only at hb
  unfold rot3 siteAt
  simp only [Int.toNat_natCast]
  rw [Nat.cast_add, Nat.cast_mul, Int.toNat_of_nonneg hb.1, Int.mul_comm]
  omega

theorem rot2_eq {L : Nat} {k : Int} (hk : k % 4 = 2) {s : Nat} (hs : s < L * L) :
    ((L * L : Nat) : Int) - 1 - s = (rotSite L k s : Nat) := by
  have hb := inBox_zpow k (inBox_gridPos hs)
  have e : (turn L ^ k) (gridPos L s) = ((L : Int) - 1 - (s % L : Nat), (L : Int) - 1 - (s / L : Nat)) := by
    rw [turn_zpow_emod, hk]
    show (turn L ^ 2) _ = _
    rw [pow_succ, pow_one, Equiv.Perm.mul_apply, turn_apply, turn_apply]
    rfl
  unfold rotSite
  rw [e] at hb ⊢
  unfold InBox at hb
  simp only at hb
  unfold siteAt
  simp only
  rw [Nat.cast_add, Nat.cast_mul L (Int.toNat _), Int.toNat_of_nonneg hb.1, Int.toNat_of_nonneg hb.2.2.1]
  have h1 : (s : Int) = (s % L : Nat) + (L : Int) * (s / L : Nat) := by
    exact_mod_cast (Nat.mod_add_div s L).symm
  rw [h1, Nat.cast_mul, mul_sub, mul_sub]
  omega

/-- The configuration describes an `L x L` square. -/
structure SquareConf (c : Config) (L : Nat) : Prop where
  w : c.nbh * c.nblocs = L
  h : c.nbv * c.nblocs = L
  n : c.nsites = L * L

theorem rotate_eq {c : Config} {L : Nat} (hq : SquareConf c L) (k : Int) {det : List Nat} (hv : ValidDet c.nsites det) :
    rotateDeterminant k c det = (if k % 4 = 0 then det
      else detOf c.nsites (occC c (det.map (rotSite L k)))).map (fun (s : Nat) => (s : Int)) := by
  have hlt : ∀ s ∈ det, s < L * L := fun s hs => by rw [← hq.n]; exact hv.mem.1 hs
  have hv' : ValidDet c.nsites (det.map (rotSite L k)) := by
    apply hv.map
    · rw [hq.n]; exact fun s hs => rotSite_lt k hs
    · rw [hq.n]; exact fun s hs t ht => rotSite_inj k hs ht
  have hnn : c.nbh * c.nbv * c.nblocs ^ 2 = L * L := by
    have : c.nbh * c.nbv * c.nblocs ^ 2 = (c.nbh * c.nblocs) * (c.nbv * c.nblocs) := by ring
    rw [this, hq.w, hq.h]
  have red : ∀ f : Nat → Int, (∀ s ∈ det, f s = (rotSite L k s : Nat)) →
      reorderInt c (det.map f) = (detOf c.nsites (occC c (det.map (rotSite L k)))).map (fun (s : Nat) => (s : Int)) := by
    intro f hf
    rw [← reorder_eq hv', ← reorderInt_map, List.map_map]
    congr 1
    exact List.map_congr_left hf
  unfold rotateDeterminant
  simp only [hq.w, hq.h, hnn]
  have hm : k.emod 4 = k % 4 := rfl
  have h4 := Int.emod_nonneg k (by decide : (4 : Int) ≠ 0)
  have h5 := Int.emod_lt_of_pos k (by decide : (0 : Int) < 4)
  rw [hm]
  by_cases h1 : k % 4 = 1
  · rw [if_pos h1, if_neg (by omega)]
    exact red _ (fun s hs => rot1_eq h1 (hlt s hs))
  · rw [if_neg h1]
    by_cases h2 : k % 4 = 2
    · rw [if_pos h2, if_neg (by omega)]
      exact red _ (fun s hs => rot2_eq h2 (hlt s hs))
    · rw [if_neg h2]
      by_cases h3 : k % 4 = 3
      · rw [if_pos h3, if_neg (by omega)]
        exact red _ (fun s hs => rot3_eq h3 (hlt s hs))
      · rw [if_neg h3, if_pos (by omega)]

/-- The rotated determinant of a canonical determinant. -/
theorem rotate_canonical {c : Config} {L : Nat} (hq : SquareConf c L) (k : Int) {det : List Nat}
    (hc : Canonical c.nsites c.nholes c.nbeta det) :
    rotateDeterminant k c det = (detOf c.nsites (occC c (det.map (rotSite L k)))).map (fun (s : Nat) => (s : Int)) := by
  rw [rotate_eq hq k hc.1]
  split_ifs with h
  · have : det.map (rotSite L k) = det := by
      rw [List.map_congr_left (g := id) (fun s _ => rotSite_zero h s)]; simp
    rw [this]
    exact congrArg _ (detOf_occ hc).symm
  · rfl

end TJ
