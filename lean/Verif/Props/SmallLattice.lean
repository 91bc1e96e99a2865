import Mathlib.Algebra.BigOperators.Group.Finset.Basic
import Mathlib.Algebra.BigOperators.Ring.Finset
import Mathlib.Algebra.BigOperators.Intervals
import Mathlib.Tactic.FieldSimp
import Mathlib.Tactic.Ring
import Verif.Model.SmallLattice
import Verif.Lemmas.Det

open Finset

namespace TJ

/-! ### C119 -/

/-- C119. `compute_ms` is the projection of the total spin: half the number of up spins minus the number of down spins, summed over the sites of any
determinant of the configuration. -/
theorem C119_projection {K : Type} [Field K] [CharZero K] (c : Config) (hn : c.nholes + c.nbeta ≤ c.nsites) (det : List Nat) (hv : ValidDet c.nsites det) :
    computeMs (K := K) c.nalpha.toNat c.nbeta =
      ∑ s ∈ range c.nsites, match occ c.nholes c.nbeta det s with
        | .up => 1 / 2
        | .down => -1 / 2
        | .hole => 0 := by
  have h1 := cnt_occ_up hv hn
  have h2 := cnt_occ_down (h := c.nholes) (b := c.nbeta) hv hn
  have key : ∀ (n : Nat) (σ : Nat → Occ), (∑ s ∈ range n, match σ s with
        | .up => (1 / 2 : K)
        | .down => -1 / 2
        | .hole => 0) = (cnt n σ .up : K) / 2 - (cnt n σ .down : K) / 2 := by
    intro n σ
    induction n with
    | zero => simp [cnt]
    | succ n ih =>
      have e : ∀ o, cnt (n + 1) σ o = cnt n σ o + if σ n = o then 1 else 0 := by
        intro o
        unfold cnt
        rw [List.range_succ, List.filter_append, List.length_append]
        by_cases h : σ n = o <;> simp [h]
      rw [sum_range_succ, ih, e, e]
      cases h : σ n <;> push_cast <;> simp <;> ring
  have h1' : cnt c.nsites (occ c.nholes c.nbeta det) .up = c.nalpha.toNat := h1
  rw [key, h1', h2]
  rfl

/-- C119. `build_K_matrix` selects the first two and the last two components of a vector; below two columns it raises `IndexError`. -/
theorem C119_first_and_last (dim : Nat) :
    (2 ≤ dim → ∃ k, buildKMatrix dim = .ok k ∧ k.rows = 4 ∧ k.cols = dim ∧ ∀ x : Nat → Int,
      ∑ j ∈ range dim, k.e 0 j * x j = x 0 ∧ ∑ j ∈ range dim, k.e 1 j * x j = x 1 ∧
      ∑ j ∈ range dim, k.e 2 j * x j = x (dim - 2) ∧ ∑ j ∈ range dim, k.e 3 j * x j = x (dim - 1)) ∧
    (dim < 2 → buildKMatrix dim = .error .indexError) := by
  constructor
  · intro h
    refine ⟨⟨4, dim, fun i j => if i = 3 ∧ j = dim - 1 then 1 else if i = 2 ∧ j = dim - 2 then 1 else if i = 1 ∧ j = 1 then 1 else
      if i = 0 ∧ j = 0 then 1 else 0⟩, ?_, rfl, rfl, fun x => ?_⟩
    · unfold buildKMatrix NdMat.setEntry NdMat.zeros
      have h1 : 0 < dim := by omega
      have h2 : 1 < dim := by omega
      have h3 : dim - 2 < dim := by omega
      have h4 : dim - 1 < dim := by omega
      simp only [h1, h2, h3, h4, and_self, if_true, bind, Except.bind, Nat.reduceLT]
    · have pick : ∀ a < dim, ∑ j ∈ range dim, (if j = a then (1 : Int) else 0) * x j = x a := by
        intro a ha
        simp only [ite_mul, one_mul, zero_mul]
        rw [sum_ite_eq' (range dim) a x, if_pos (mem_range.2 ha)]
      refine ⟨?_, ?_, ?_, ?_⟩
      · rw [← pick 0 (by omega)]; simp
      · rw [← pick 1 (by omega)]; simp
      · rw [← pick (dim - 2) (by omega)]; simp
      · rw [← pick (dim - 1) (by omega)]; simp
  · intro h
    obtain rfl | rfl : dim = 0 ∨ dim = 1 := by omega
    · rfl
    · rfl

/-- C119. `build_L_matrix` puts the second of four components in the first row and the third one in the last row; without rows it raises
`IndexError`. -/
theorem C119_ends (dim : Nat) :
    (1 ≤ dim → ∃ l, buildLMatrix dim = .ok l ∧ l.rows = dim ∧ l.cols = 4 ∧ ∀ (y : Nat → Int) (i : Nat), i < dim →
      ∑ j ∈ range 4, l.e i j * y j = (if i = 0 then y 1 else 0) + if i = dim - 1 then y 2 else 0) ∧
    (dim = 0 → buildLMatrix dim = .error .indexError) := by
  constructor
  · intro h
    refine ⟨⟨dim, 4, fun i j => if i = dim - 1 ∧ j = 2 then 1 else if i = 0 ∧ j = 1 then 1 else 0⟩, ?_, rfl, rfl, fun y i _ => ?_⟩
    · unfold buildLMatrix NdMat.setEntry NdMat.zeros
      have h1 : 0 < dim := by omega
      have h4 : dim - 1 < dim := by omega
      simp only [h1, h4, and_self, if_true, bind, Except.bind, Nat.reduceLT]
    · simp [sum_range_succ]
  · rintro rfl
    rfl

example : (buildKMatrix 3).toOption.map (fun k => (List.range 4).map (fun i => (List.range 3).map (k.e i))) =
    some [[1, 0, 0], [0, 1, 0], [0, 1, 0], [0, 0, 1]] := by decide
example : (buildLMatrix 2).toOption.map (fun k => (List.range 2).map (fun i => (List.range 4).map (k.e i))) = some [[0, 1, 0, 0], [0, 0, 1, 0]] := by decide
example : ValidDet 3 [1, 0, 2] ∧ computeMs (K := ℚ) 1 1 = 0 ∧ computeMs (K := ℚ) 2 1 = 1 / 2 := by
  refine ⟨by decide, ?_, ?_⟩ <;> norm_num [computeMs]

end TJ
