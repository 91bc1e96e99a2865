/-
Property C108: the couplings behind the points of the phase diagrams.
-/
import Verif.Model.PhaseAxes
import Verif.Props.Phase

namespace TJ

/-- C108. The matrix of column `iX` and row `iY` is that of the model with V = `iX` J, t = -`iY` J, the second and third neighbour hoppings
and the second repulsion in fixed proportions to these, and the other couplings as given: the axes do not enter. -/
theorem C108_hamiltonian_partial {K : Type} [Field K] (E : Env) (c : Config) (nbh nbv nb : Nat) (hc : RectConf c nbh nbv nb)
    (hf : c.Full) (hn : c.nholes + c.nbeta ≤ c.nsites) (I : Interactions K) (B : BoolInteractions) (r : List Nat) (v : Bool)
    (dets : List (List Nat)) (hb : constructBasis c = .ok dets) (iX iY : Nat) :
    ∃ H, buildHamiltonian E c (phaseCouplings I iX iY) dets B r v = .ok H ∧ H.dim = dets.length ∧
      ∀ i j (hi : i < dets.length) (hj : j < dets.length),
        H.entry i j = hamEl (⟨-(iY * I.J), I.J, I.Jhpar, I.Jhper, I.hSDpar, I.hSDper, 13 / 55 * (iY * I.J), -(36 / 55 * (iY * I.J)), iX * I.J,
          79 / 177 * (iX * I.J)⟩ : Interactions K) (fun s => gridPos (nbh * nb) s) B (conf c dets[i]) (conf c dets[j]) := by
  obtain ⟨H, h1, h2, _, _⟩ := buildHamiltonian_spec (phaseCouplings I iX iY) (hc.tj E) hf hn hb B r v
  refine ⟨H, h1, h2, fun i j hi hj => ?_⟩
  rw [C31_matrix_elements E c nbh nbv nb hc hf hn (phaseCouplings I iX iY) B r v dets hb H h1 i j hi hj]
  congr 1
  unfold phaseCouplings
  simp only [Interactions.mk.injEq, true_and]
  refine ⟨by ring, by ring, by ring, ?_⟩
  trivial

/-- C108. When the coupling J is not zero and the axis has two or more values, the hopping of row `iY` is the one shown on the axis exactly
when `iY (nbT + 4) = 5 (nbT - 1)`. -/
theorem C108_rows (I : Interactions ℝ) (hJ : I.J ≠ 0) (nbT iX iY : Nat) (h : 2 ≤ nbT) :
    (phaseCouplings I iX iY).t = axisT nbT iY * I.J ↔ iY * (nbT + 4) = 5 * (nbT - 1) := by
  obtain ⟨n, rfl⟩ : ∃ n, nbT = n + 1 := ⟨nbT - 1, by omega⟩
  have hn : (n : ℝ) ≠ 0 := by
    have : n ≠ 0 := by omega
    exact_mod_cast this
  unfold phaseCouplings axisT linspace
  dsimp only
  rw [mul_left_inj' hJ, Nat.cast_add, Nat.cast_one, add_sub_cancel_right, Nat.add_sub_cancel]
  constructor
  · intro h
    field_simp at h
    have : (iY : ℝ) * (n + 1 + 4) = 5 * n := by linarith
    exact_mod_cast this
  · intro h
    have : (iY : ℝ) * (n + 1 + 4) = 5 * n := by exact_mod_cast h
    field_simp
    linarith

/-- C108. When the coupling J is not zero and the axis has two or more values, the repulsion of column `iX` is the one shown on the axis
exactly in the first column or when there are 16 values. -/
theorem C108_columns (I : Interactions ℝ) (hJ : I.J ≠ 0) (nbV iX iY : Nat) (h : 2 ≤ nbV) :
    (phaseCouplings I iX iY).VNN = axisV nbV iX * I.J ↔ iX = 0 ∨ nbV = 16 := by
  obtain ⟨n, rfl⟩ : ∃ n, nbV = n + 1 := ⟨nbV - 1, by omega⟩
  have hn : (n : ℝ) ≠ 0 := by
    have : n ≠ 0 := by omega
    exact_mod_cast this
  unfold phaseCouplings axisV linspace
  dsimp only
  rw [mul_left_inj' hJ, Nat.cast_add, Nat.cast_one, add_sub_cancel_right]
  have : (iX : ℝ) = 0 + iX * ((15 - 0) / n) ↔ iX * n = 15 * iX := by
    constructor
    · intro h
      field_simp at h
      have : (iX : ℝ) * n = 15 * iX := by linarith
      exact_mod_cast this
    · intro h
      have : (iX : ℝ) * n = 15 * iX := by exact_mod_cast h
      field_simp
      linarith
  rw [this]
  constructor
  · intro h
    rcases Nat.eq_zero_or_pos iX with h0 | h0
    · exact Or.inl h0
    · right
      have : n = 15 := Nat.eq_of_mul_eq_mul_left h0 (by linarith)
      omega
  · rintro (rfl | h)
    · simp
    · have : n = 15 := by omega
      subst this
      ring

/-- C108 fails in the first and in the last row of every grid with two or more rows: the first is drawn at t = -5 J but computed without
hopping, the last is drawn at t = 0 but computed with t = -(nbT - 1) J. -/
theorem C108_wrong_rows (I : Interactions ℝ) (hJ : I.J ≠ 0) (nbT iX : Nat) (h : 2 ≤ nbT) :
    (phaseCouplings I iX 0).t = 0 ∧ axisT nbT 0 = -5 ∧
      (phaseCouplings I iX (nbT - 1)).t = -((nbT - 1 : Nat) : ℝ) * I.J ∧ (phaseCouplings I iX (nbT - 1)).t ≠ 0 ∧ axisT nbT (nbT - 1) = 0 := by
  have hn : ((nbT - 1 : Nat) : ℝ) ≠ 0 := by
    have : nbT - 1 ≠ 0 := by omega
    exact_mod_cast this
  refine ⟨by simp [phaseCouplings], by simp [axisT, linspace], rfl, mul_ne_zero (neg_ne_zero.2 hn) hJ, ?_⟩
  have hc : (nbT : ℝ) - 1 = ((nbT - 1 : Nat) : ℝ) := by rw [Nat.cast_sub (by omega), Nat.cast_one]
  unfold axisT linspace
  rw [hc]
  field_simp
  ring

/-! ### Cases that meet the hypotheses -/

/-- A grid with seven rows: no row of it has the hopping shown on the axis. -/
example : ∀ iX iY, (phaseCouplings (⟨-1, 2, 3, 4, 5, 6, 7, 8, 9, 10⟩ : Interactions ℝ) iX iY).t ≠ axisT 7 iY * 2 := fun iX iY h => by
  have := (C108_rows (⟨-1, 2, 3, 4, 5, 6, 7, 8, 9, 10⟩ : Interactions ℝ) (by norm_num) 7 iX iY (by omega)).1 h
  omega

/-- With two columns the second is drawn at 15 and computed at 1. -/
example : (phaseCouplings (⟨-1, 2, 3, 4, 5, 6, 7, 8, 9, 10⟩ : Interactions ℝ) 1 0).VNN ≠ axisV 2 1 * 2 := fun h => by
  have := (C108_columns (⟨-1, 2, 3, 4, 5, 6, 7, 8, 9, 10⟩ : Interactions ℝ) (by norm_num) 2 1 0 (by omega)).1 h
  omega

example : ∃ H, buildHamiltonian exEnv (rectConf 2 2 1 1 1) (phaseCouplings exI 2 3) (basisList 4 1 1) ⟨true, true, true, true, true, true⟩ [] true =
    .ok H ∧ H.dim = 12 := by
  obtain ⟨H, h1, h2, _⟩ := C108_hamiltonian_partial exEnv (rectConf 2 2 1 1 1) 2 2 1 (rectConf_ok 2 2 1 1 1 (by decide) (by decide) (by decide))
    (by unfold Config.Full; decide) (by decide) exI ⟨true, true, true, true, true, true⟩ [] true (basisList 4 1 1) (by decide +kernel) 2 3
  exact ⟨H, h1, by rw [h2]; decide +kernel⟩

end TJ
