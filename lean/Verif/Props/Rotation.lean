/-
Property C13: rotation of square lattices.
-/
import Verif.Lemmas.Rotation
import Verif.Props.Basis
import Verif.Props.Linear

namespace TJ

/-- C13. On an `L x L` square `rotate_determinant(k, ...)` returns a determinant in which
the content of site (x, y) has moved to the position obtained from (x, y) by `k` clockwise
quarter turns (x, y) ↦ (y, L-1-x), for every integer `k`. Canonical determinants go to
canonical determinants. -/
theorem C13_rotation (c : Config) (L : Nat) (hq : SquareConf c L) (hn : c.nholes + c.nbeta ≤ c.nsites) (k : Int)
    (det : List Nat) (hv : ValidDet c.nsites det) :
    ∃ d' : List Nat, rotateDeterminant k c det = d'.map (fun (s : Nat) => (s : Int)) ∧ ValidDet c.nsites d' ∧
      (Canonical c.nsites c.nholes c.nbeta det → Canonical c.nsites c.nholes c.nbeta d') ∧
      ∀ s < c.nsites, ∃ s' < c.nsites, gridPos L s' = (turn L ^ k) (gridPos L s) ∧
        occ c.nholes c.nbeta d' s' = occ c.nholes c.nbeta det s := by
  have hr : ∀ s < c.nsites, rotSite L k s < c.nsites := by rw [hq.n]; exact fun s hs => rotSite_lt k hs
  have hi : ∀ s < c.nsites, ∀ t < c.nsites, rotSite L k s = rotSite L k t → s = t := by
    rw [hq.n]; exact fun s hs t ht => rotSite_inj k hs ht
  have hv' := hv.map hr hi
  have hpos : ∀ s < c.nsites, gridPos L (rotSite L k s) = (turn L ^ k) (gridPos L s) := by
    rw [hq.n]; exact fun s hs => gridPos_rotSite k hs
  refine ⟨_, rotate_eq hq k hv, ?_⟩
  split_ifs with h
  · refine ⟨hv, id, fun s hs => ⟨rotSite L k s, hr s hs, hpos s hs, ?_⟩⟩
    rw [rotSite_zero h]
  · refine ⟨detOf_valid _ _, fun _ => detOf_canonical (cnt_occ_hole hv' hn) (cnt_occ_down hv' hn),
      fun s hs => ⟨rotSite L k s, hr s hs, hpos s hs, ?_⟩⟩
    rw [occ_detOf (σ := occC c (det.map (rotSite L k))) (cnt_occ_hole hv' hn) (cnt_occ_down hv' hn) (hr s hs)]
    exact occ_map hv hi hs

/-- C13. Rotation maps basis elements to basis elements. -/
theorem C13_basis (c : Config) (L : Nat) (hq : SquareConf c L) (hn : c.nholes + c.nbeta ≤ c.nsites) (k : Int)
    (basis : List (List Nat)) (hb : constructBasis c = .ok basis) (det : List Nat) (hd : det ∈ basis) :
    ∃ d' ∈ basis, rotateDeterminant k c det = d'.map (fun (s : Nat) => (s : Int)) := by
  rw [constructBasis_eq] at hb
  obtain rfl := Except.ok.inj hb
  have hc := canonical_of_mem_basisList hd
  obtain ⟨d', h1, _, h3, _⟩ := C13_rotation c L hq hn k det hc.1
  have h4 := h3 hc
  refine ⟨d', mem_basisList.2 ⟨occ c.nholes c.nbeta d', cnt_occ_hole h4.1 hn, cnt_occ_down h4.1 hn, (detOf_occ h4).symm⟩, h1⟩

/-- C13. Rotations compose additively. -/
theorem C13_compose (c : Config) (L : Nat) (hq : SquareConf c L) (hn : c.nholes + c.nbeta ≤ c.nsites) (k m : Int)
    (det d : List Nat) (hc : Canonical c.nsites c.nholes c.nbeta det)
    (hd : rotateDeterminant m c det = d.map (fun (s : Nat) => (s : Int))) :
    rotateDeterminant k c d = rotateDeterminant (k + m) c det := by
  have lt : ∀ k : Int, ∀ s < c.nsites, rotSite L k s < c.nsites := by rw [hq.n]; exact fun k s hs => rotSite_lt k hs
  have inj : ∀ k : Int, ∀ s < c.nsites, ∀ t < c.nsites, rotSite L k s = rotSite L k t → s = t := by
    rw [hq.n]; exact fun k s hs t ht => rotSite_inj k hs ht
  have hm := hc.1.map (lt m) (inj m)
  have hkm := hc.1.map (lt (k + m)) (inj (k + m))
  rw [rotate_canonical hq m hc] at hd
  have hd : detOf c.nsites (occC c (det.map (rotSite L m))) = d :=
    (List.map_injective_iff.2 (fun a b h => by exact_mod_cast h)) hd
  subst hd
  have hcan : Canonical c.nsites c.nholes c.nbeta (detOf c.nsites (occC c (det.map (rotSite L m)))) :=
    detOf_canonical (cnt_occ_hole hm hn) (cnt_occ_down hm hn)
  rw [rotate_canonical hq k hcan, rotate_canonical hq (k + m) hc]
  congr 1
  apply detOf_congr
  intro s hs
  obtain ⟨t, ht, rfl⟩ := exists_preimage (lt k) (inj k) hs
  obtain ⟨u, hu, rfl⟩ := exists_preimage (lt m) (inj m) ht
  rw [show occC c (List.map (rotSite L k) (detOf c.nsites (occC c (det.map (rotSite L m))))) (rotSite L k (rotSite L m u))
    = occC c (detOf c.nsites (occC c (det.map (rotSite L m)))) (rotSite L m u) from occ_map hcan.1 (inj k) ht,
    show occC c (detOf c.nsites (occC c (det.map (rotSite L m)))) (rotSite L m u) = occC c (det.map (rotSite L m)) (rotSite L m u)
      from occ_detOf (σ := occC c (det.map (rotSite L m))) (cnt_occ_hole hm hn) (cnt_occ_down hm hn) ht,
    rotSite_comp k m (by rw [← hq.n]; exact hu)]
  exact (occ_map hc.1 (inj m) hu).trans (occ_map hc.1 (inj (k + m)) hu).symm

/-- C13. Four quarter turns are the identity and `k` and `4 - k` are inverse. -/
theorem C13_inverse (c : Config) (L : Nat) (hq : SquareConf c L) (hn : c.nholes + c.nbeta ≤ c.nsites) (k : Int)
    (det d : List Nat) (hc : Canonical c.nsites c.nholes c.nbeta det)
    (hd : rotateDeterminant k c det = d.map (fun (s : Nat) => (s : Int))) :
    rotateDeterminant (4 - k) c d = det.map (fun (s : Nat) => (s : Int)) ∧
    rotateDeterminant 4 c det = det.map (fun (s : Nat) => (s : Int)) := by
  have h4 : rotateDeterminant 4 c det = det.map (fun (s : Nat) => (s : Int)) := rfl
  refine ⟨?_, h4⟩
  rw [C13_compose c L hq hn (4 - k) k det d hc hd, sub_add_cancel]
  exact h4

/-- C13. Rotations map bonds to bonds. -/
theorem C13_bonds (c : Config) (nbh nbv nb : Nat) (hr : RectConf c nbh nbv nb) (k : Int)
    (i j i' j' : Nat) (hi : i < c.nsites) (hj : j < c.nsites) (hi' : i' < c.nsites) (hj' : j' < c.nsites)
    (h1 : gridPos (nbh * nb) i' = (turn (nbh * nb) ^ k) (gridPos (nbh * nb) i))
    (h2 : gridPos (nbh * nb) j' = (turn (nbh * nb) ^ k) (gridPos (nbh * nb) j)) :
    c.bond.e i' j' = c.bond.e i j := by
  obtain ⟨_, sp⟩ := hr.spec
  rw [sp i' hi' j' hj', sp i hi j hj]
  unfold nnInd
  rw [h1, h2]
  simp only [near_zpow]

/-- C13. On a rectangle that is not a square, one or three quarter turns never return a
determinant: a site is sent outside the lattice. -/
theorem C13_not_square (c : Config) (w h : Nat) (hw : c.nbh * c.nblocs = w) (hh : c.nbv * c.nblocs = h)
    (hn : c.nsites = w * h) (hw1 : 1 ≤ w) (hh1 : 1 ≤ h) (hne : w ≠ h) (k : Int) (hk : k % 2 = 1) (det : List Nat)
    (hv : ValidDet c.nsites det) :
    ¬ ∃ d' : List Nat, rotateDeterminant k c det = d'.map (fun (s : Nat) => (s : Int)) ∧ ValidDet c.nsites d' := by
  rintro ⟨d', h1, h2⟩
  have hin : ∀ z ∈ rotateDeterminant k c det, 0 ≤ z ∧ z < (w : Int) * h := by
    intro z hz
    rw [h1] at hz
    obtain ⟨s, hs, rfl⟩ := List.mem_map.1 hz
    have := h2.mem.1 hs
    rw [hn] at this
    exact ⟨by omega, by exact_mod_cast this⟩
  have m1 : k.emod 4 = 1 ∨ k.emod 4 = 3 := by
    have : k.emod 4 = k % 4 := rfl
    omega
  have hs1 : w - 1 ∈ det := by
    rw [hv.mem, hn]
    have := Nat.mul_le_mul_left w hh1
    omega
  have hs2 : w * (h - 1) ∈ det := by
    rw [hv.mem, hn]
    exact Nat.mul_lt_mul_of_pos_left (by omega) (by omega)
  have e1 : (w - 1) % w = w - 1 := Nat.mod_eq_of_lt (by omega)
  have e2 : (w - 1) / w = 0 := Nat.div_eq_of_lt (by omega)
  have e3 : w * (h - 1) % w = 0 := Nat.mul_mod_right _ _
  have e4 : w * (h - 1) / w = h - 1 := Nat.mul_div_cancel_left _ (by omega)
  have c1 : ((w - 1 : Nat) : Int) = w - 1 := by omega
  have c2 : ((h - 1 : Nat) : Int) = h - 1 := by omega
  have hwp : (1 : Int) ≤ w := by omega
  have hhp : (1 : Int) ≤ h := by omega
  unfold rotateDeterminant at hin
  simp only [hw, hh] at hin
  rcases m1 with m1 | m1
  · rw [if_pos m1] at hin
    have k1 := hin _ ((perm_reorderInt c _).mem_iff.2 (List.mem_map.2 ⟨_, hs1, rfl⟩))
    have k2 := hin _ ((perm_reorderInt c _).mem_iff.2 (List.mem_map.2 ⟨_, hs2, rfl⟩))
    unfold rot1 at k1 k2
    rw [e1, e2, c1] at k1
    rw [e3, e4, c2] at k2
    rcases Nat.lt_or_gt_of_ne hne with hlt | hlt
    · have : (w : Int) < h := by omega
      push_cast at k2
      nlinarith [k2.2]
    · have : (h : Int) < w := by omega
      push_cast at k1
      nlinarith [k1.1]
  · rw [if_neg (by omega), if_neg (by omega), if_pos m1] at hin
    have k1 := hin _ ((perm_reorderInt c _).mem_iff.2 (List.mem_map.2 ⟨_, hs1, rfl⟩))
    have k2 := hin _ ((perm_reorderInt c _).mem_iff.2 (List.mem_map.2 ⟨_, hs2, rfl⟩))
    unfold rot3 at k1 k2
    rw [e1, e2, c1] at k1
    rw [e3, e4, c2] at k2
    rcases Nat.lt_or_gt_of_ne hne with hlt | hlt
    · have : (w : Int) < h := by omega
      push_cast at k2
      omega
    · have : (h : Int) < w := by omega
      push_cast at k1
      nlinarith [k1.2]

/-- 3 x 3 square, hole in the corner (2, 0): one clockwise quarter turn moves it to (0, 0). -/
example : rotateDeterminant 1 (rectConf 3 3 1 1 1) [2, 4, 0, 1, 3, 5, 6, 7, 8] = [0, 4, 1, 2, 3, 5, 6, 7, 8] := by decide
example : rotateDeterminant (-1) (rectConf 3 3 1 1 1) [0, 4, 1, 2, 3, 5, 6, 7, 8] = [2, 4, 0, 1, 3, 5, 6, 7, 8] := by decide
example : SquareConf (rectConf 3 3 1 1 1) 3 := ⟨by decide, by decide, by decide⟩
example : Canonical (rectConf 3 3 1 1 1).nsites 1 1 [2, 4, 0, 1, 3, 5, 6, 7, 8] := by unfold Canonical; decide
/-- 3 x 2 rectangle: site 2 is sent to -3. -/
example : -3 ∈ rotateDeterminant 1 (rectConf 3 2 1 1 1) [2, 4, 0, 1, 3, 5] := by decide

end TJ
