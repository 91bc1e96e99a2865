/-
Property C91: `compute_spin_z` and `compute_spins_z_two_bodies`.
-/
import Verif.Lemmas.SpinPos
import Verif.Props.Linear
import Verif.Props.Multiplets

namespace TJ

open Finset

section
variable {K : Type} [Field K]

/-- The projection of the spin of a site. -/
def szOf (o : Occ) : K :=
  if o = .up then 1 / 2 else if o = .down then -(1 / 2) else 0

theorem szOf_eq (o : Occ) : (szOf o : K) = o.val := by
  cases o
  · rfl
  · show -(1 / 2 : K) = -1 / 2
    ring
  · rfl

variable {c : Config} {dets : List (List Nat)}

theorem twoBodies_loop (hb : constructBasis c = .ok dets) (v : List K) (hv : v.length = dets.length) (i j : Fin c.nsites) :
    ∀ m ≤ c.nbConf, ∃ w : List K, (List.range m).foldlM (fun (w : List K) ind => do
      let x ← pyGet v ind
      let det ← getHashBasis c.nholes c.nalpha.toNat c.nbeta ind
      let s ← computeSpinsZTwoBodiesDet c det i j
      pySet w ind (x * s)) v = .ok w ∧ w.length = v.length ∧
      ∀ k (hk : k < dets.length), w.getD k 0 = if k < m then szOf (conf c dets[k] i) * szOf (conf c dets[k] j) * v.getD k 0 else v.getD k 0
  | 0, _ => ⟨v, rfl, rfl, fun k _ => by rw [if_neg (by omega)]⟩
  | m + 1, hm => by
    obtain ⟨w, h1, h2, h3⟩ := twoBodies_loop hb v hv i j m (by omega)
    have hlen := C02_dimension c dets hb
    have hmd : m < dets.length := by omega
    have hval := (canonical_getElem hb m hmd).1
    have hdet : computeSpinsZTwoBodiesDet (K := K) c dets[m] i j = .ok (szOf (conf c dets[m] i) * szOf (conf c dets[m] j)) := by
      unfold computeSpinsZTwoBodiesDet
      refine bind_ok (getSpinSite_eq (hval.mem.2 i.2)) ?_
      refine bind_ok (getSpinSite_eq (hval.mem.2 j.2)) ?_
      rw [szOf_eq, szOf_eq]
      rfl
    refine ⟨w.set m (v.getD m 0 * (szOf (conf c dets[m] i) * szOf (conf c dets[m] j))), foldlM_range_succ h1 ?_, by rw [List.length_set, h2], ?_⟩
    · refine bind_ok (a := v.getD m 0) ?_ ?_
      · unfold pyGet
        rw [List.getD_eq_getElem?_getD, List.getElem?_eq_getElem (by omega)]
        rfl
      refine bind_ok (C05_unrank c dets hb m hmd) ?_
      refine bind_ok hdet ?_
      unfold pySet
      rw [if_pos (by omega)]
    · intro k hk
      by_cases e : k = m
      · subst e
        rw [if_pos (by omega), List.getD_eq_getElem?_getD, List.getElem?_set_self (by omega), Option.getD_some]
        ring
      · rw [List.getD_eq_getElem?_getD, List.getElem?_set_ne (Ne.symm e), ← List.getD_eq_getElem?_getD, h3 k hk]
        by_cases l : k < m
        · rw [if_pos l, if_pos (by omega)]
        · rw [if_neg l, if_neg (by omega)]

/-- C91. The result of `compute_spins_z_two_bodies` is the product of the two spin projections applied to the state. -/
theorem C91_two_bodies (c : Config) (hn : c.nholes + c.nbeta ≤ c.nsites) (dets : List (List Nat)) (hb : constructBasis c = .ok dets)
    (v : List K) (hv : v.length = dets.length) (i j : Fin c.nsites) :
    ∃ w, computeSpinsZTwoBodies c v i j = .ok w ∧ w.length = v.length ∧
      ∀ σ : Conf c.nsites, amp c dets w σ = szOf (σ i) * szOf (σ j) * amp c dets v σ := by
  obtain ⟨w, h1, h2, h3⟩ := twoBodies_loop hb v hv i j c.nbConf le_rfl
  refine ⟨w, h1, h2, fun σ => congrFun (amp_ext hb hn (F := fun σ => szOf (σ i) * szOf (σ j) * amp c dets v σ) ?_ ?_) σ⟩
  · intro k hk
    rw [h3 k hk, if_pos (by rw [← C02_dimension c dets hb]; exact hk)]
    rw [amp_conf hb v hk]
  · intro σ hσ
    rw [amp_outside hb hn v hσ, mul_zero]

/-- The sum of all projections is half the difference of the numbers of up and down spins. -/
theorem sum_szOf {n : Nat} (σ : Conf n) : (∑ i, (szOf (σ i) : K)) = ((σ.count .up : K) - (σ.count .down : K)) / 2 := by
  have h : ∀ i, (szOf (σ i) : K) = (1 / 2) * (if σ i = .up then 1 else 0) - (1 / 2) * (if σ i = .down then 1 else 0) := by
    intro i
    unfold szOf
    cases σ i <;> simp
  rw [sum_congr rfl fun i _ => h i, sum_sub_distrib, ← mul_sum, ← mul_sum]
  unfold Conf.count
  rw [card_filter, card_filter]
  push_cast
  ring

/-- C91. `compute_spin_z` returns the total projection as a number, and the state multiplied by it; the products for all pairs of sites
add up to its square. -/
theorem C91_total (c : Config) (hn : c.nholes + c.nbeta ≤ c.nsites) (dets : List (List Nat)) (hb : constructBasis c = .ok dets)
    (v : List K) (hv : v.length = dets.length) :
    (∀ σ : Conf c.nsites, amp c dets (computeSpinZ c v).2 σ = (∑ i, szOf (σ i)) * amp c dets v σ) ∧
    (∀ σ : Conf c.nsites, amp c dets (computeSpinZ c v).2 σ = (computeSpinZ c v).1 * amp c dets v σ) ∧
    ∃ w : Fin c.nsites → Fin c.nsites → List K, (∀ i j : Fin c.nsites, computeSpinsZTwoBodies c v i j = .ok (w i j)) ∧
      ∀ σ : Conf c.nsites, (∑ i, ∑ j, amp c dets (w i j) σ) = (computeSpinZ c v).1 ^ 2 * amp c dets v σ := by
  have key : ∀ σ : Conf c.nsites, amp c dets v σ ≠ 0 → (∑ i, (szOf (σ i) : K)) = (computeSpinZ c v).1 := by
    intro σ hσ
    by_cases h : σ.count .hole = c.nholes ∧ σ.count .down = c.nbeta
    · rw [sum_szOf, h.2]
      have := count_sum σ
      have e : ((σ.count .up : Nat) : Int) = c.nalpha := by
        unfold Config.nalpha
        omega
      show _ = ((c.nalpha : K) - (c.nbeta : K)) / 2
      rw [← e]
      push_cast
      rfl
    · exact absurd (amp_outside hb hn v h) hσ
  have h2 : ∀ σ : Conf c.nsites, amp c dets (computeSpinZ c v).2 σ = (computeSpinZ c v).1 * amp c dets v σ := by
    intro σ
    unfold amp
    rw [mul_sum]
    refine sum_congr rfl fun k _ => ?_
    split_ifs
    · show (v.map (fun x => (computeSpinZ c v).1 * x)).getD k 0 = _
      rw [List.getD_eq_getElem?_getD, List.getElem?_map, List.getD_eq_getElem?_getD]
      cases v[k]? <;> simp
    · rw [mul_zero]
  refine ⟨fun σ => ?_, h2, ?_⟩
  · rw [h2]
    by_cases h : amp c dets v σ = 0
    · rw [h, mul_zero, mul_zero]
    · rw [key σ h]
  · choose w w1 w2 w3 using fun i j => C91_two_bodies (K := K) c hn dets hb v hv i j
    refine ⟨w, w1, fun σ => ?_⟩
    have : (∑ i, ∑ j, amp c dets (w i j) σ) = (∑ i, szOf (σ i)) * (∑ j, szOf (σ j)) * amp c dets v σ := by
      rw [sum_mul_sum, sum_mul]
      refine sum_congr rfl fun i _ => ?_
      rw [sum_mul]
      exact sum_congr rfl fun j _ => w3 i j σ
    rw [this]
    by_cases h : amp c dets v σ = 0
    · rw [h, mul_zero, mul_zero]
    · rw [key σ h, sq]

/-- C91. A site that is not on the lattice raises `ValueError`. -/
theorem C91_bad_site (c : Config) (hn : c.nholes + c.nbeta ≤ c.nsites) (v : List K) (hv : v.length = c.nbConf) (i j : Nat)
    (hij : c.nsites ≤ i ∨ c.nsites ≤ j) : computeSpinsZTwoBodies c v i j = .error .valueError := by
  have hb := constructBasis_eq c
  have hlen := C02_dimension c _ hb
  have hpos : 0 < c.nbConf := by
    rw [C02_dimension_value c, if_pos hn]
    exact Nat.mul_pos (Nat.choose_pos (by omega)) (Nat.choose_pos (by omega))
  have h0 : 0 < (basisList c.nsites c.nholes c.nbeta).length := by omega
  have hval := (canonical_getElem hb 0 h0).1
  have hdet : computeSpinsZTwoBodiesDet (K := K) c (basisList c.nsites c.nholes c.nbeta)[0] i j = .error .valueError := by
    have hsite : ∀ s, c.nsites ≤ s → getSpinSite c (basisList c.nsites c.nholes c.nbeta)[0] s = .error .valueError :=
      fun s hs => ((C09_errors SetSem.sorted c _).1 s).2 (fun h => absurd (hval.mem.1 h) (by omega))
    unfold computeSpinsZTwoBodiesDet
    by_cases hi : c.nsites ≤ i
    · rw [hsite i hi]
      rfl
    · refine bind_ok (getSpinSite_eq (hval.mem.2 (by omega))) ?_
      rw [hsite j (by omega)]
      rfl
  obtain ⟨m, hm⟩ : ∃ m, c.nbConf = m + 1 := ⟨c.nbConf - 1, by omega⟩
  unfold computeSpinsZTwoBodies
  rw [hm, List.range_succ_eq_map, List.foldlM_cons]
  have hx : pyGet v 0 = .ok (v.getD 0 0) := by
    unfold pyGet
    rw [List.getD_eq_getElem?_getD, List.getElem?_eq_getElem (by omega)]
    rfl
  have hstep : (do
      let x ← pyGet v 0
      let det ← getHashBasis c.nholes c.nalpha.toNat c.nbeta 0
      let s ← computeSpinsZTwoBodiesDet c det i j
      pySet v 0 (x * s) : Py (List K)) = .error .valueError := by
    rw [hx, C05_unrank c _ hb 0 h0]
    refine bind_ok rfl (bind_ok rfl ?_)
    rw [hdet]
    rfl
  rw [hstep]
  rfl

end

/-- Two electrons: `Sz_0 Sz_1` is -1/4 on both determinants with opposite spins; with a hole it is 0. -/
example : computeSpinsZTwoBodies (rectConf 2 1 1 0 1) [(3 : ℚ), 5] 0 1 = .ok [-3 / 4, -5 / 4] := by decide +kernel
example : computeSpinsZTwoBodies (rectConf 2 1 1 1 0) [(3 : ℚ), 5] 0 1 = .ok [0, 0] := by decide +kernel
example : computeSpinsZTwoBodies (rectConf 2 1 1 1 0) [(3 : ℚ), 5] 0 2 = .error .valueError := by decide +kernel
example : computeSpinZ (rectConf 2 2 1 1 1) [(3 : ℚ)] = (1 / 2, [3 / 2]) := by decide +kernel
example : constructBasis (rectConf 2 2 1 1 1) = .ok (basisList 4 1 1) ∧ (rectConf 2 2 1 1 1).nholes + (rectConf 2 2 1 1 1).nbeta ≤ (rectConf 2 2 1 1 1).nsites :=
  ⟨constructBasis_eq _, by decide⟩

end TJ
