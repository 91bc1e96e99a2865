/-
Closed walks of four steps: those of the code are never less than those of fermions, so the sums of the fourth powers of the energies differ.
-/
import Verif.Lemmas.FermiCycle
import Verif.Lemmas.HoleMoves
import Mathlib.Analysis.Matrix.Spectrum

namespace TJ

open Finset Matrix

section
variable {n : Nat}

theorem jumpSign_sq (K : Type) [Field K] (σ : Conf n) (a b : Fin n) : jumpSign K σ a b * jumpSign K σ a b = 1 := by
  unfold jumpSign
  rw [← prod_mul_distrib]
  refine prod_eq_one fun z _ => ?_
  split_ifs <;> ring

/-- The sign of a jump depends on the holes between the two sites only. -/
theorem jumpSign_congr (K : Type) [Field K] {σ τ : Conf n} {a b : Fin n} (h : ∀ s, s ≠ a → s ≠ b → (σ s = .hole ↔ τ s = .hole)) :
    jumpSign K σ a b = jumpSign K τ b a := by
  unfold jumpSign
  refine prod_congr rfl fun z _ => if_congr ?_ rfl rfl
  constructor
  · rintro ⟨h1, h2⟩
    refine ⟨h1.symm, fun h3 => h2 ((h z ?_ ?_).2 h3)⟩
    · rcases h1 with h1 | h1
      · exact h1.1.ne'
      · exact h1.2.ne
    · rcases h1 with h1 | h1
      · exact h1.2.ne
      · exact h1.1.ne'
  · rintro ⟨h1, h2⟩
    refine ⟨h1.symm, fun h3 => h2 ((h z ?_ ?_).1 h3)⟩
    · rcases h1 with h1 | h1
      · exact h1.2.ne
      · exact h1.1.ne'
    · rcases h1 with h1 | h1
      · exact h1.1.ne'
      · exact h1.2.ne

theorem SameHoles.trans {σ τ ρ : Conf n} (h : SameHoles σ τ) (h' : SameHoles τ ρ) : SameHoles σ ρ := fun s => (h s).trans (h' s)

theorem SameHoles.symm {σ τ : Conf n} (h : SameHoles σ τ) : SameHoles τ σ := fun s => (h s).symm

/-- Two hops that restore the holes go there and back. -/
theorem two_hops (K : Type) [Field K] {σ ρ : Conf n} {a b a' b' : Fin n} (ha : σ a = .hole) (hb : σ b ≠ .hole) (ha' : ρ a' = .hole) (hb' : ρ b' ≠ .hole)
    (h : SameHoles (exch σ a b) ρ) (h' : SameHoles (exch ρ a' b') σ) : jumpSign K σ a b * jumpSign K ρ a' b' = 1 := by
  have hab : a ≠ b := fun e => hb (e ▸ ha)
  have r1 : ρ a ≠ .hole := fun e => hb (by have := (h a).2 e; rwa [exch_left] at this)
  have r2 : ρ b = .hole := (h b).1 (by rw [exch_right, ha])
  have r3 : ∀ s, s ≠ a → s ≠ b → (σ s = .hole ↔ ρ s = .hole) := by
    intro s h1 h2
    have := h s
    rwa [exch_other σ h1 h2] at this
  have hb1 : b' = a := by
    by_contra hne
    have k1 : a ≠ a' := fun e => r1 (e ▸ ha')
    have k2 := (h' a).2 ha
    rw [exch_other ρ k1 (Ne.symm hne)] at k2
    exact r1 k2
  have ha1 : a' = b := by
    by_contra hne
    have k1 : b ≠ b' := fun e => hab (hb1.symm.trans e.symm)
    have k2 := (h' b).1 (by rw [exch_other ρ (Ne.symm hne) k1, r2])
    exact hb k2
  rw [ha1, hb1, ← jumpSign_congr K r3]
  exact jumpSign_sq K σ a b

theorem HopStep.symm {pos : Fin n → Pt} {σ τ : Conf n} (h : HopStep pos σ τ) : HopStep pos τ σ := by
  obtain ⟨a, b, h1, h2, h3, rfl⟩ := h
  refine ⟨b, a, by rw [exch_right, h1], by rw [exch_left]; exact h2, ?_, ?_⟩
  · unfold Near at h3 ⊢
    omega
  · funext s
    unfold exch
    simp [Equiv.swap_comm b a]

/-- A hop changes the colour of the holes. -/
theorem hop_colour {pos : Fin n → Pt} {σ τ : Conf n} (h : HopStep pos σ τ) : (holeSign pos τ : ℚ) = - holeSign pos σ := by
  obtain ⟨a, b, h1, h2, h3, rfl⟩ := h
  have e1 := holeSign_exch (K := ℚ) pos h1 h2
  rw [colourSign_near h3] at e1
  have e2 := holeSign_sq (K := ℚ) pos σ
  linear_combination (holeSign pos σ : ℚ) * e1 - (holeSign pos (exch σ a b) : ℚ) * e2

theorem colour_ne (pos : Fin n → Pt) (σ : Conf n) : (holeSign pos σ : ℚ) ≠ - holeSign pos σ := by
  intro h
  have e2 := holeSign_sq (K := ℚ) pos σ
  have : (holeSign pos σ : ℚ) = 0 := by linarith
  rw [this] at e2
  norm_num at e2

end

section
variable {K : Type} [Field K] {n : Nat} {I : Interactions K} {pos : Fin n → Pt} {B : BoolInteractions}

/-- Without a hop the elements agree. -/
theorem fermi_same (hB : B.bSD = false) (hN : B.btN = false) {σ τ : Conf n} (h : SameHoles σ τ) :
    fermiEl siteOrder I pos B σ τ = hamEl I pos B σ τ := by
  have t0 : ∀ a b, ¬ (σ a = .hole ∧ σ b ≠ .hole ∧ Near (pos a) (pos b) ∧ τ = exch σ a b) := by
    rintro a b ⟨h1, h2, _, rfl⟩
    have := (h a).1 h1
    rw [exch_left] at this
    exact h2 this
  have t1 : hopF I pos σ τ = 0 := sum_eq_zero fun a _ => sum_eq_zero fun b _ => if_neg (t0 a b)
  have t2 : hopEl I pos σ τ = 0 := sum_eq_zero fun a _ => sum_eq_zero fun b _ => if_neg (t0 a b)
  rw [fermi_sites, t1]
  unfold hamEl
  rw [t2, hB, hN]
  simp

/-- All other elements are zero. -/
theorem fermi_zero (hB : B.bSD = false) (hN : B.btN = false) {σ τ : Conf n} (h : ¬ SameHoles σ τ) (h' : ¬ HopStep pos σ τ) :
    fermiEl siteOrder I pos B σ τ = 0 ∧ hamEl I pos B σ τ = 0 := by
  have t0 : ∀ a b, ¬ (σ a = .hole ∧ σ b ≠ .hole ∧ Near (pos a) (pos b) ∧ τ = exch σ a b) := fun a b k => h' ⟨a, b, k⟩
  have t1 : hopF I pos σ τ = 0 := sum_eq_zero fun a _ => sum_eq_zero fun b _ => if_neg (t0 a b)
  have t2 : hopEl I pos σ τ = 0 := sum_eq_zero fun a _ => sum_eq_zero fun b _ => if_neg (t0 a b)
  have hne : ¬ τ = σ := fun e => h (e ▸ fun s => Iff.rfl)
  have t3 : staticEl I pos σ τ = 0 := if_neg hne
  have t4 : repEl I pos σ τ = 0 := if_neg hne
  have t5 : flipEl I pos σ τ = 0 := by
    refine sum_eq_zero fun a' _ => sum_eq_zero fun b' _ => if_neg ?_
    rintro ⟨_, _, h3, h4, _, rfl⟩
    exact h fun s => (exch_hole_iff h3 h4 s).symm
  rw [fermi_sites]
  unfold hamEl
  rw [t1, t2, t3, t4, t5, hB, hN]
  simp

theorem fermi_symm (hB : B.bSD = false) (hN : B.btN = false) (σ τ : Conf n) :
    fermiEl siteOrder I pos B σ τ = fermiEl siteOrder I pos B τ σ := by
  by_cases h : SameHoles σ τ
  · rw [fermi_same hB hN h, fermi_same hB hN h.symm, hamEl_symm]
  · by_cases h' : HopStep pos σ τ
    · obtain ⟨a, b, h1, h2, h3, rfl⟩ := h'
      have k3 : Near (pos b) (pos a) := by
        unfold Near at h3 ⊢
        omega
      have k4 : exch (exch σ a b) b a = σ := by
        funext s
        unfold exch
        simp [Equiv.swap_comm b a]
      have k5 := fermi_hop I pos B (σ := exch σ a b) (a := b) (b := a) (by rw [exch_right, h1]) (by rw [exch_left]; exact h2) k3
      rw [k4] at k5
      rw [fermi_hop I pos B h1 h2 h3, k5]
      refine congrArg _ (jumpSign_congr K fun s s1 s2 => ?_)
      rw [exch_other σ s1 s2]
    · rw [(fermi_zero hB hN h h').1, (fermi_zero hB hN (fun k => h k.symm) (fun k => h' k.symm)).1]

end

section
variable {n : Nat} {I : Interactions ℝ} {pos : Fin n → Pt} {B : BoolInteractions}

/-- What a step can be. -/
theorem step_cases (hB : B.bSD = false) (hN : B.btN = false) (σ τ : Conf n) :
    (SameHoles σ τ ∧ fermiEl siteOrder I pos B σ τ = hamEl I pos B σ τ) ∨
      (∃ a b, σ a = .hole ∧ σ b ≠ .hole ∧ HopStep pos σ τ ∧ τ = exch σ a b ∧ hamEl I pos B σ τ = (if B.bt then I.t else 0) ∧
        fermiEl siteOrder I pos B σ τ = (if B.bt then I.t else 0) * jumpSign ℝ σ a b) ∨
      (fermiEl siteOrder I pos B σ τ = 0 ∧ hamEl I pos B σ τ = 0) := by
  by_cases h : SameHoles σ τ
  · exact Or.inl ⟨h, fermi_same hB hN h⟩
  · by_cases h' : HopStep pos σ τ
    · have hs := h'
      obtain ⟨a, b, h1, h2, h3, rfl⟩ := h'
      refine Or.inr (Or.inl ⟨a, b, h1, h2, hs, rfl, ?_, fermi_hop I pos B h1 h2 h3⟩)
      by_cases hb : B.bt = true
      · rw [if_pos hb]
        exact hamEl_exch I pos B hb h1 h2 h3
      · have e := hamEl_exch I pos { B with bt := true } rfl h1 h2 h3
        have e2 : hopEl I pos σ (exch σ a b) = I.t := hopEl_exch I pos h1 h2 h3
        rw [if_neg hb]
        unfold hamEl at e ⊢
        rw [if_pos rfl, e2] at e
        rw [if_neg hb]
        linear_combination e
    · exact Or.inr (Or.inr (fermi_zero hB hN h h'))

/-- A closed walk of four steps has a weight in the code that is at least that of fermions. -/
theorem walk_le (hB : B.bSD = false) (hN : B.btN = false) (σ1 σ2 σ3 σ4 : Conf n) :
    fermiEl siteOrder I pos B σ1 σ2 * fermiEl siteOrder I pos B σ2 σ3 * (fermiEl siteOrder I pos B σ3 σ4 * fermiEl siteOrder I pos B σ4 σ1) ≤
      hamEl I pos B σ1 σ2 * hamEl I pos B σ2 σ3 * (hamEl I pos B σ3 σ4 * hamEl I pos B σ4 σ1) := by
  have same : ∀ {σ τ : Conf n}, SameHoles σ τ → (holeSign pos τ : ℚ) = holeSign pos σ := fun h => (holeSign_congr pos h).symm
  have no := colour_ne pos σ1
  have hop : ∀ {σ : Conf n} {a b}, HopStep pos σ (exch σ a b) → (holeSign pos (exch σ a b) : ℚ) = - holeSign pos σ := fun h => hop_colour h
  rcases step_cases (I := I) (pos := pos) hB hN σ1 σ2 with ⟨s1, e1⟩ | ⟨a1, b1, x1, y1, z1, w1, e1, f1⟩ | ⟨e1, f1⟩
  · rcases step_cases (I := I) (pos := pos) hB hN σ2 σ3 with ⟨s2, e2⟩ | ⟨a2, b2, x2, y2, z2, w2, e2, f2⟩ | ⟨e2, f2⟩
    · rcases step_cases (I := I) (pos := pos) hB hN σ3 σ4 with ⟨s3, e3⟩ | ⟨a3, b3, x3, y3, z3, w3, e3, f3⟩ | ⟨e3, f3⟩
      · rcases step_cases (I := I) (pos := pos) hB hN σ4 σ1 with ⟨s4, e4⟩ | ⟨a4, b4, x4, y4, z4, w4, e4, f4⟩ | ⟨e4, f4⟩
        · rw [e1, e2, e3, e4]
        · have := hop_colour z4
          rw [same s3, same s2, same s1] at this
          exact absurd this no
        · rw [e4, f4]; simp
      · rcases step_cases (I := I) (pos := pos) hB hN σ4 σ1 with ⟨s4, e4⟩ | ⟨a4, b4, x4, y4, z4, w4, e4, f4⟩ | ⟨e4, f4⟩
        · have := same s4
          rw [hop_colour z3, same s2, same s1] at this
          exact absurd this no
        · have j := two_hops ℝ x3 y3 x4 y4 (w3 ▸ fun s => Iff.rfl) (w4 ▸ s1.trans s2)
          rw [e1, e2, e3, e4, f3, f4]
          refine le_of_eq ?_
          linear_combination (hamEl I pos B σ1 σ2 * hamEl I pos B σ2 σ3 * ((if B.bt then I.t else 0) * (if B.bt then I.t else 0))) * j
        · rw [e4, f4]; simp
      · rw [e3, f3]; simp
    · rcases step_cases (I := I) (pos := pos) hB hN σ3 σ4 with ⟨s3, e3⟩ | ⟨a3, b3, x3, y3, z3, w3, e3, f3⟩ | ⟨e3, f3⟩
      · rcases step_cases (I := I) (pos := pos) hB hN σ4 σ1 with ⟨s4, e4⟩ | ⟨a4, b4, x4, y4, z4, w4, e4, f4⟩ | ⟨e4, f4⟩
        · have := same s4
          rw [same s3, hop_colour z2, same s1] at this
          exact absurd this no
        · have j := two_hops ℝ x2 y2 x4 y4 (w2 ▸ s3) (w4 ▸ s1)
          rw [e1, e2, e3, e4, f2, f4]
          refine le_of_eq ?_
          linear_combination (hamEl I pos B σ1 σ2 * hamEl I pos B σ3 σ4 * ((if B.bt then I.t else 0) * (if B.bt then I.t else 0))) * j
        · rw [e4, f4]; simp
      · rcases step_cases (I := I) (pos := pos) hB hN σ4 σ1 with ⟨s4, e4⟩ | ⟨a4, b4, x4, y4, z4, w4, e4, f4⟩ | ⟨e4, f4⟩
        · have j := two_hops ℝ x2 y2 x3 y3 (w2 ▸ fun s => Iff.rfl) (w3 ▸ s4.trans s1)
          rw [e1, e2, e3, e4, f2, f3]
          refine le_of_eq ?_
          linear_combination (hamEl I pos B σ1 σ2 * hamEl I pos B σ4 σ1 * ((if B.bt then I.t else 0) * (if B.bt then I.t else 0))) * j
        · have := hop_colour z4
          rw [hop_colour z3, hop_colour z2, same s1, neg_neg] at this
          exact absurd this no
        · rw [e4, f4]; simp
      · rw [e3, f3]; simp
    · rw [e2, f2]; simp
  · rcases step_cases (I := I) (pos := pos) hB hN σ2 σ3 with ⟨s2, e2⟩ | ⟨a2, b2, x2, y2, z2, w2, e2, f2⟩ | ⟨e2, f2⟩
    · rcases step_cases (I := I) (pos := pos) hB hN σ3 σ4 with ⟨s3, e3⟩ | ⟨a3, b3, x3, y3, z3, w3, e3, f3⟩ | ⟨e3, f3⟩
      · rcases step_cases (I := I) (pos := pos) hB hN σ4 σ1 with ⟨s4, e4⟩ | ⟨a4, b4, x4, y4, z4, w4, e4, f4⟩ | ⟨e4, f4⟩
        · have := same s4
          rw [same s3, same s2, hop_colour z1] at this
          exact absurd this no
        · have j := two_hops ℝ x1 y1 x4 y4 (w1 ▸ s2.trans s3) (w4 ▸ fun s => Iff.rfl)
          rw [e1, e2, e3, e4, f1, f4]
          refine le_of_eq ?_
          linear_combination (hamEl I pos B σ2 σ3 * hamEl I pos B σ3 σ4 * ((if B.bt then I.t else 0) * (if B.bt then I.t else 0))) * j
        · rw [e4, f4]; simp
      · rcases step_cases (I := I) (pos := pos) hB hN σ4 σ1 with ⟨s4, e4⟩ | ⟨a4, b4, x4, y4, z4, w4, e4, f4⟩ | ⟨e4, f4⟩
        · have j := two_hops ℝ x1 y1 x3 y3 (w1 ▸ s2) (w3 ▸ s4)
          rw [e1, e2, e3, e4, f1, f3]
          refine le_of_eq ?_
          linear_combination (hamEl I pos B σ2 σ3 * hamEl I pos B σ4 σ1 * ((if B.bt then I.t else 0) * (if B.bt then I.t else 0))) * j
        · have := hop_colour z4
          rw [hop_colour z3, same s2, hop_colour z1, neg_neg] at this
          exact absurd this no
        · rw [e4, f4]; simp
      · rw [e3, f3]; simp
    · rcases step_cases (I := I) (pos := pos) hB hN σ3 σ4 with ⟨s3, e3⟩ | ⟨a3, b3, x3, y3, z3, w3, e3, f3⟩ | ⟨e3, f3⟩
      · rcases step_cases (I := I) (pos := pos) hB hN σ4 σ1 with ⟨s4, e4⟩ | ⟨a4, b4, x4, y4, z4, w4, e4, f4⟩ | ⟨e4, f4⟩
        · have j := two_hops ℝ x1 y1 x2 y2 (w1 ▸ fun s => Iff.rfl) (w2 ▸ s3.trans s4)
          rw [e1, e2, e3, e4, f1, f2]
          refine le_of_eq ?_
          linear_combination (hamEl I pos B σ3 σ4 * hamEl I pos B σ4 σ1 * ((if B.bt then I.t else 0) * (if B.bt then I.t else 0))) * j
        · have := hop_colour z4
          rw [same s3, hop_colour z2, hop_colour z1, neg_neg] at this
          exact absurd this no
        · rw [e4, f4]; simp
      · rcases step_cases (I := I) (pos := pos) hB hN σ4 σ1 with ⟨s4, e4⟩ | ⟨a4, b4, x4, y4, z4, w4, e4, f4⟩ | ⟨e4, f4⟩
        · have := same s4
          rw [hop_colour z3, hop_colour z2, hop_colour z1, neg_neg] at this
          exact absurd this no
        · rw [e1, e2, e3, e4, f1, f2, f3, f4]
          set T : ℝ := if B.bt then I.t else 0
          set j : ℝ := jumpSign ℝ σ1 a1 b1 * jumpSign ℝ σ2 a2 b2 * (jumpSign ℝ σ3 a3 b3 * jumpSign ℝ σ4 a4 b4) with hj
          have hj2 : j * j = 1 := by
            rw [hj]
            have q1 := jumpSign_sq ℝ σ1 a1 b1
            have q2 := jumpSign_sq ℝ σ2 a2 b2
            have q3 := jumpSign_sq ℝ σ3 a3 b3
            have q4 := jumpSign_sq ℝ σ4 a4 b4
            calc _ = jumpSign ℝ σ1 a1 b1 * jumpSign ℝ σ1 a1 b1 * (jumpSign ℝ σ2 a2 b2 * jumpSign ℝ σ2 a2 b2) *
                  (jumpSign ℝ σ3 a3 b3 * jumpSign ℝ σ3 a3 b3) * (jumpSign ℝ σ4 a4 b4 * jumpSign ℝ σ4 a4 b4) := by ring
              _ = 1 := by rw [q1, q2, q3, q4]; norm_num
          have hj1 : j ≤ 1 := by nlinarith [sq_nonneg (j - 1)]
          have hT : 0 ≤ T * T * (T * T) := mul_self_nonneg (T * T)
          have e : T * jumpSign ℝ σ1 a1 b1 * (T * jumpSign ℝ σ2 a2 b2) * (T * jumpSign ℝ σ3 a3 b3 * (T * jumpSign ℝ σ4 a4 b4)) =
              T * T * (T * T) * j := by
            rw [hj]
            ring
          rw [e]
          nlinarith
        · rw [e4, f4]; simp
      · rw [e3, f3]; simp
    · rw [e2, f2]; simp
  · rw [e1, f1]; simp

end

/-! ### The trace of the fourth power -/

theorem trace_four {d : Nat} (M : Matrix (Fin d) (Fin d) ℝ) : (M ^ 4).trace = ∑ i, ∑ k, ∑ j, ∑ l, M i j * M j k * (M k l * M l i) := by
  have e : M ^ 4 = (M * M) * (M * M) := by
    rw [pow_succ, pow_succ, pow_succ, pow_one]
    simp only [Matrix.mul_assoc]
  rw [e]
  unfold Matrix.trace
  refine sum_congr rfl fun i _ => ?_
  rw [diag_apply, mul_apply]
  refine sum_congr rfl fun k _ => ?_
  rw [mul_apply, mul_apply, sum_mul_sum]

/-- The trace of a power is a function of the characteristic polynomial. -/
theorem trace_of_charpoly {d : Nat} {A F : Matrix (Fin d) (Fin d) ℝ} (hA : A.IsSymm) (hF : F.IsSymm) (h : A.charpoly = F.charpoly) (k : Nat) :
    (A ^ k).trace = (F ^ k).trace := by
  have key : ∀ {M : Matrix (Fin d) (Fin d) ℝ} (hM : M.IsHermitian), (M ^ k).trace = ∑ i, hM.eigenvalues i ^ k := by
    intro M hM
    have e : M ^ k = Unitary.conjStarAlgAut ℝ _ hM.eigenvectorUnitary ((diagonal (RCLike.ofReal ∘ hM.eigenvalues)) ^ k) := by
      rw [map_pow, ← hM.spectral_theorem]
    rw [e, Unitary.conjStarAlgAut_apply, Matrix.trace_mul_cycle, Unitary.coe_star_mul_self, one_mul, diagonal_pow, trace_diagonal]
    rfl
  have hA' : A.IsHermitian := by rw [Matrix.IsHermitian, conjTranspose_eq_transpose_of_trivial]; exact hA
  have hF' : F.IsHermitian := by rw [Matrix.IsHermitian, conjTranspose_eq_transpose_of_trivial]; exact hF
  rw [key hA', key hF', (hA'.eigenvalues_eq_eigenvalues_iff hF').2 h]

/-- If no closed walk of four steps is heavier in `F`, and one is lighter, the characteristic polynomials differ. -/
theorem trace_lt {d : Nat} {A F : Matrix (Fin d) (Fin d) ℝ}
    (h : ∀ i j k l, F i j * F j k * (F k l * F l i) ≤ A i j * A j k * (A k l * A l i))
    (i j k l : Fin d) (h' : F i j * F j k * (F k l * F l i) < A i j * A j k * (A k l * A l i)) : (F ^ 4).trace < (A ^ 4).trace := by
  rw [trace_four, trace_four]
  refine sum_lt_sum (fun i _ => sum_le_sum fun k _ => sum_le_sum fun j _ => sum_le_sum fun l _ => h i j k l) ⟨i, mem_univ _, ?_⟩
  refine sum_lt_sum (fun k _ => sum_le_sum fun j _ => sum_le_sum fun l _ => h i j k l) ⟨k, mem_univ _, ?_⟩
  refine sum_lt_sum (fun j _ => sum_le_sum fun l _ => h i j k l) ⟨j, mem_univ _, ?_⟩
  exact sum_lt_sum (fun l _ => h i j k l) ⟨l, mem_univ _, h'⟩

end TJ
