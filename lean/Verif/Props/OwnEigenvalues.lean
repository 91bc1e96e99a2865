import Verif.Lemmas.OwnEigenvalues
import Verif.Props.Initial
import Verif.Props.Couplings
import Verif.Props.RitzValues

/-!
Property C133: the values that Davidson returns after convergence stand for different eigenvalues.
-/

namespace TJ

open Finset Matrix

section
variable {K : Type} [Field K] [LinearOrder K] [IsStrictOrderedRing K] {d : Nat}

/-- C133. In exact arithmetic, after convergence with n values, the matrix has n different eigenvalue numbers such that the value k is within
`√n tol` of the k-th of them: two returned values never stand for one eigenvalue. The eigenvalues are counted with multiplicity; `ε` is
any bound of `√n tol`. -/
theorem C133_own_eigenvalues (L : LinAlg K) (hL : L.ExactSqrt) (he : L.ExactEigh) (hq : L.ExactQr) (A : Matrix (Fin d) (Fin d) K)
    (hA : A.IsSymm) (nbVal : Nat) (guess : Option (List (Fin d → K))) (stp : Nat) (tol : K) (dimMax : Nat)
    (r : DavidsonResult K d) (h : modifiedDavidson L A nbVal guess stp tol dimMax = .ok r) (hc : r.converged = true)
    (ho : 1 < min nbVal (if dimMax = 0 then d else dimMax) ∨ (∃ g, guess = some g ∧ Ortho g) ∨ 2 ≤ r.trace.length)
    (mu : Fin d → K) (x : Fin d → Fin d → K) (hx : ∀ j, A *ᵥ x j = mu j • x j) (hxo : ∀ i j, x i ⬝ᵥ x j = if i = j then 1 else 0)
    (hmu : Monotone mu) (ε : K) (hε : 0 ≤ ε) (ht : r.eigvals.length * (tol * tol) ≤ ε * ε) :
    ∃ f : Fin r.eigvals.length → Fin d, Function.Injective f ∧ ∀ k, |mu (f k) - r.eigvals[k]| ≤ ε := by
  obtain ⟨W, rs, hW, hr⟩ := last_ortho hq h ho
  obtain ⟨o1, _, _⟩ := ritz_exact he hA hW hr
  have o2 := ritz_diagonal he hA hr
  obtain ⟨_, c2, _, _, c5⟩ := C50_converged L A nbVal guess stp tol dimMax r h
  have hus : ∀ i : Fin r.eigvals.length, (i : Nat) < r.eigvects.length := fun i => by have := i.2; omega
  refine cluster hA (fun M hM => ⟨_, _, he d M hM⟩) hx hxo hmu (V := fun i : Fin r.eigvals.length => r.eigvects[(i : Nat)]'(hus i))
    (th := fun i => r.eigvals[i]) ?_ ?_ hε (t := tol * tol) ?_ ht
  · intro i j
    have := o1 ⟨i, hus i⟩ ⟨j, hus j⟩
    simpa [Fin.ext_iff] using this
  · intro i j
    have := o2 i j (hus i) (hus j) i.2
    simpa [Fin.ext_iff] using this
  · intro i
    exact ((norm_le_iff hL _ _).1 (c5.1 hc i i.2 (hus i))).2

/-- C133. At least as many eigenvalues are near an interval as returned values are in it: the degeneracies shown after convergence are
lower bounds. -/
theorem C133_degeneracy (L : LinAlg K) (hL : L.ExactSqrt) (he : L.ExactEigh) (hq : L.ExactQr) (A : Matrix (Fin d) (Fin d) K)
    (hA : A.IsSymm) (nbVal : Nat) (guess : Option (List (Fin d → K))) (stp : Nat) (tol : K) (dimMax : Nat)
    (r : DavidsonResult K d) (h : modifiedDavidson L A nbVal guess stp tol dimMax = .ok r) (hc : r.converged = true)
    (ho : 1 < min nbVal (if dimMax = 0 then d else dimMax) ∨ (∃ g, guess = some g ∧ Ortho g) ∨ 2 ≤ r.trace.length)
    (mu : Fin d → K) (x : Fin d → Fin d → K) (hx : ∀ j, A *ᵥ x j = mu j • x j) (hxo : ∀ i j, x i ⬝ᵥ x j = if i = j then 1 else 0)
    (hmu : Monotone mu) (ε : K) (hε : 0 ≤ ε) (ht : r.eigvals.length * (tol * tol) ≤ ε * ε) (lo hi : K) :
    (univ.filter fun k : Fin r.eigvals.length => lo ≤ r.eigvals[k] ∧ r.eigvals[k] ≤ hi).card ≤
      (univ.filter fun j => lo - ε ≤ mu j ∧ mu j ≤ hi + ε).card := by
  obtain ⟨f, f1, f2⟩ := C133_own_eigenvalues L hL he hq A hA nbVal guess stp tol dimMax r h hc ho mu x hx hxo hmu ε hε ht
  refine card_le_card_of_injOn f ?_ f1.injOn
  intro k hk
  have hk := (mem_filter.1 hk).2
  have := abs_le.1 (f2 k)
  rw [mem_coe, mem_filter]
  exact ⟨mem_univ _, by linarith [hk.1], by linarith [hk.2]⟩

/-- C133. Whatever the QR decomposition, the diagonalisation of the small matrix and the random vectors are: if the norms are not computed smaller than
`c` times their exact value, every returned value is within `tol / (c ‖u‖)` of an eigenvalue, `u` being its vector. -/
theorem C133_any_library (L : LinAlg K) (c : K) (hL : ∀ y, 0 ≤ y → 0 ≤ L.sqrt y ∧ c * c * y ≤ L.sqrt y * L.sqrt y)
    (A : Matrix (Fin d) (Fin d) K) (hA : A.IsSymm) (nbVal : Nat) (guess : Option (List (Fin d → K))) (stp : Nat) (tol : K) (dimMax : Nat)
    (r : DavidsonResult K d) (h : modifiedDavidson L A nbVal guess stp tol dimMax = .ok r) (hc : r.converged = true)
    (mu : Fin d → K) (x : Fin d → Fin d → K) (hx : ∀ j, A *ᵥ x j = mu j • x j) (hxo : ∀ i j, x i ⬝ᵥ x j = if i = j then 1 else 0)
    (k : Nat) (h1 : k < r.eigvals.length) (h2 : k < r.eigvects.length) (hu : r.eigvects[k] ≠ 0) :
    ∃ j, c * c * ((mu j - r.eigvals[k]) * (mu j - r.eigvals[k])) * (r.eigvects[k] ⬝ᵥ r.eigvects[k]) ≤ tol * tol := by
  obtain ⟨_, _, _, _, c5⟩ := C50_converged L A nbVal guess stp tol dimMax r h
  have hr := c5.1 hc k h1 h2
  set u := r.eigvects[k] with hud
  set lam := r.eigvals[k] with hld
  set R := lam • u - A *ᵥ u with hR
  obtain ⟨n0, n1⟩ := hL _ (dot_self_nonneg R)
  have hR2 : c * c * (R ⬝ᵥ R) ≤ tol * tol := n1.trans (mul_le_mul hr hr n0 (n0.trans hr))
  by_contra hcon
  push Not at hcon
  have hk : ∀ j, x j ⬝ᵥ R = (lam - mu j) * (x j ⬝ᵥ u) := by
    intro j
    rw [hR, dotProduct_sub, dotProduct_smul, symm_dot hA, hx j, smul_dotProduct, smul_eq_mul, smul_eq_mul]
    ring
  have hpos : 0 < u ⬝ᵥ u := lt_of_le_of_ne (dot_self_nonneg u) fun h0 => hu (dotProduct_self_eq_zero.1 h0.symm)
  have e1 : c * c * (R ⬝ᵥ R) = ∑ j, c * c * ((mu j - lam) * (mu j - lam)) * ((x j ⬝ᵥ u) * (x j ⬝ᵥ u)) := by
    rw [complete hxo R R, mul_sum]
    refine sum_congr rfl fun j _ => ?_
    rw [hk]
    ring
  have e2 : (tol * tol) * (u ⬝ᵥ u) = ∑ j, tol * tol * ((x j ⬝ᵥ u) * (x j ⬝ᵥ u)) := by rw [complete hxo u u, mul_sum]
  have hne : ∃ j, x j ⬝ᵥ u ≠ 0 := by
    by_contra hz
    push Not at hz
    have := complete hxo u u
    simp only [hz, mul_zero, sum_const_zero] at this
    exact absurd this hpos.ne'
  obtain ⟨j0, hj0⟩ := hne
  have hlt : ∑ j, tol * tol * ((x j ⬝ᵥ u) * (x j ⬝ᵥ u)) < ∑ j, c * c * ((mu j - lam) * (mu j - lam)) * (u ⬝ᵥ u) * ((x j ⬝ᵥ u) * (x j ⬝ᵥ u)) := by
    refine sum_lt_sum (fun j _ => mul_le_mul_of_nonneg_right (hcon j).le (mul_self_nonneg _)) ⟨j0, mem_univ _, ?_⟩
    exact mul_lt_mul_of_pos_right (hcon j0) (mul_self_pos.2 hj0)
  have e3 : ∑ j, c * c * ((mu j - lam) * (mu j - lam)) * (u ⬝ᵥ u) * ((x j ⬝ᵥ u) * (x j ⬝ᵥ u)) = c * c * (R ⬝ᵥ R) * (u ⬝ᵥ u) := by
    rw [e1, sum_mul]
    exact sum_congr rfl fun j _ => by ring
  rw [← e2, e3] at hlt
  exact absurd hlt (not_lt.2 (mul_le_mul_of_nonneg_right hR2 hpos.le))

end

/-- C133. `perform_initial_computations`: after convergence with n values the textbook Hamiltonian has n orthonormal eigenstates in the sector of the
configuration, and the energy of the k-th is within `√n tol` of the k-th returned value. -/
theorem C133_initial (E : Env) (L : LinAlg ℝ) (hL : L.ExactSqrt) (he : L.ExactEigh) (hq : L.ExactQr) (swap : List ℝ → Bool)
    (D : Data ℝ) (nbh nbv nb : Nat) (hc : RectConf D.config nbh nbv nb) (hf : D.config.Full)
    (hn : D.config.nholes + D.config.nbeta ≤ D.config.nsites) (r : InitialResult) (h : performInitial E L swap D = .ok r)
    (hcv : r.eig.converged = true) (hm : 1 < D.diag.count r.determinants.length ∨ 2 ≤ r.eig.trace.length) :
    ∃ (mu : Fin r.eig.eigvals.length → ℝ) (ψ : Fin r.eig.eigvals.length → Conf D.config.nsites → ℝ),
      (∀ i j, ∑ σ, ψ i σ * ψ j σ = if i = j then 1 else 0) ∧ (∀ k, InSector D.config.nholes D.config.nbeta (ψ k)) ∧
      (∀ k σ, tjOp D.interactions (fun s => gridPos (nbh * nb) s) D.bools (ψ k) σ = mu k * ψ k σ) ∧
      ∀ k, |mu k - r.eig.eigvals[k]| ≤ √(r.eig.eigvals.length : ℝ) * D.diag.tol := by
  obtain ⟨hb, hH, ⟨guess, hd, _⟩, _⟩ := performInitial_ok h
  obtain ⟨H, e1, e2, _, _⟩ := buildHamiltonian_spec D.interactions (hc.tj E) hf hn hb D.bools [] true
  have eH := Except.ok.inj (hH.symm.trans e1)
  have hdim : r.ham.dim = r.determinants.length := by rw [eH]; exact e2
  have hel := C31_matrix_elements E D.config nbh nbv nb hc hf hn D.interactions D.bools [] true r.determinants hb r.ham hH
  have hsym : r.ham.toMatrix.IsSymm := by
    ext i j
    exact C32_symmetric E D.config nbh nbv nb hc hf hn D.interactions D.bools [] true r.determinants hb r.ham hH j i
  obtain ⟨mu, x, x1, x2, x3⟩ := exists_sorted r.ham.toMatrix hsym
  by_cases h0 : r.eig.eigvals.length = 0
  · refine ⟨fun _ => 0, fun _ _ => 0, ?_, ?_, ?_, ?_⟩ <;> intro k <;> exact absurd k.2 (by omega)
  have ht0 : 0 ≤ D.diag.tol := by
    obtain ⟨_, c2, _, _, c5⟩ := C50_converged L r.ham.toMatrix D.diag.nbVal guess D.diag.stp D.diag.tol D.diag.dimMax r.eig hd
    exact ((norm_le_iff hL _ _).1 (c5.1 hcv 0 (by omega) (by omega))).1
  obtain ⟨f, f1, f2⟩ := C133_own_eigenvalues L hL he hq r.ham.toMatrix hsym D.diag.nbVal guess D.diag.stp D.diag.tol D.diag.dimMax r.eig hd hcv (by
      rcases hm with hm | hm
      · left; rw [hdim]; exact hm
      · right; right; exact hm) mu x x1 x2 x3 (√(r.eig.eigvals.length : ℝ) * D.diag.tol) (mul_nonneg (Real.sqrt_nonneg _) ht0) (by
      have := Real.mul_self_sqrt (Nat.cast_nonneg (α := ℝ) r.eig.eigvals.length)
      nlinarith)
  refine ⟨fun k => mu (f k), fun k => state D.config r.determinants (x (f k)), ?_, fun k => state_sector hb hn _, ?_, f2⟩
  · intro i j
    rw [← state_dot hb hn hdim, x2]
    simp only [f1.eq_iff]
  · intro k σ
    rw [← state_mulVec hb hn hdim hel, x1]
    have := state_residue hb hn hdim (mu (f k)) (x (f k)) 0 σ
    rw [sub_zero] at this
    rw [this, show state D.config r.determinants (0 : Fin r.ham.dim → ℝ) σ = 0 from ?_, sub_zero]
    have h0 := state_residue hb hn hdim 0 (0 : Fin r.ham.dim → ℝ) (0 : Fin r.ham.dim → ℝ) σ
    rw [smul_zero, sub_zero] at h0
    linarith

/-- Two values of a matrix of order 4, tolerance 1/1000: two different eigenvalue numbers within 2/1000. -/
example : ∃ r, modifiedDavidson realLib exMat 2 none 2 (1 / 1000) 6 = .ok r ∧ r.converged = true ∧ r.eigvals.length = 2 ∧
    ∃ (mu : Fin 4 → ℝ) (f : Fin r.eigvals.length → Fin 4), Monotone mu ∧ Function.Injective f ∧ ∀ k, |mu (f k) - r.eigvals[k]| ≤ 2 / 1000 := by
  obtain ⟨r, h, hc⟩ := C69_converges realLib realLib_sqrt realLib_eigh realLib_qr realLib_rand exMat exMat_symm 2 2 (1 / 1000)
    (by norm_num) 6 (by omega) (by omega) (by omega) (by omega)
  obtain ⟨mu, x, x1, x2, x3⟩ := exists_sorted exMat exMat_symm
  have hl : r.eigvals.length = 2 := (C50_converged realLib exMat 2 none 2 _ 6 r h).1
  obtain ⟨f, f1, f2⟩ := C133_own_eigenvalues realLib realLib_sqrt realLib_eigh realLib_qr exMat exMat_symm 2 none 2 _ 6 r h hc (Or.inl (by simp))
    mu x x1 x2 x3 (2 / 1000) (by norm_num) (by rw [hl]; norm_num)
  exact ⟨r, h, hc, hl, mu, f, x3, f1, f2⟩

/-- The same run: two values at most 1 from 0 need two eigenvalues between -1.002 and 1.002. -/
example : ∃ (r : DavidsonResult ℝ 4) (mu : Fin 4 → ℝ), r.eigvals.length = 2 ∧
    (univ.filter fun k : Fin r.eigvals.length => (-1 : ℝ) ≤ r.eigvals[k] ∧ r.eigvals[k] ≤ 1).card ≤
      (univ.filter fun j => (-1 : ℝ) - 2 / 1000 ≤ mu j ∧ mu j ≤ 1 + 2 / 1000).card := by
  obtain ⟨r, h, hc⟩ := C69_converges realLib realLib_sqrt realLib_eigh realLib_qr realLib_rand exMat exMat_symm 2 2 (1 / 1000)
    (by norm_num) 6 (by omega) (by omega) (by omega) (by omega)
  obtain ⟨mu, x, x1, x2, x3⟩ := exists_sorted exMat exMat_symm
  have hl : r.eigvals.length = 2 := (C50_converged realLib exMat 2 none 2 _ 6 r h).1
  exact ⟨r, mu, hl, C133_degeneracy realLib realLib_sqrt realLib_eigh realLib_qr exMat exMat_symm 2 none 2 _ 6 r h hc (Or.inl (by simp))
    mu x x1 x2 x3 (2 / 1000) (by norm_num) (by rw [hl]; norm_num) (-1) 1⟩

/-- The same run and the bound for any library, with norms at least half of the exact ones. -/
example : ∃ (r : DavidsonResult ℝ 4) (mu : Fin 4 → ℝ) (h1 : 0 < r.eigvals.length) (h2 : 0 < r.eigvects.length), ∃ j,
    (1 / 2 : ℝ) * (1 / 2 : ℝ) * ((mu j - r.eigvals[0]) * (mu j - r.eigvals[0])) * (r.eigvects[0] ⬝ᵥ r.eigvects[0]) ≤ 1 / 1000 * (1 / 1000) := by
  obtain ⟨r, h, hc⟩ := C69_converges realLib realLib_sqrt realLib_eigh realLib_qr realLib_rand exMat exMat_symm 2 2 (1 / 1000)
    (by norm_num) 6 (by omega) (by omega) (by omega) (by omega)
  obtain ⟨mu, x, x1, x2, x3⟩ := exists_sorted exMat exMat_symm
  obtain ⟨c1, c2, _⟩ := C50_converged realLib exMat 2 none 2 _ 6 r h
  have hl : r.eigvals.length = 2 := c1
  obtain ⟨W, rs, hW, hr⟩ := last_ortho realLib_qr h (Or.inl (by simp))
  obtain ⟨o1, _, _⟩ := ritz_exact realLib_eigh exMat_symm hW hr
  have hu : r.eigvects[0]'(by omega) ≠ 0 := fun h0 => by
    have := o1 ⟨0, by omega⟩ ⟨0, by omega⟩
    simp [h0] at this
  refine ⟨r, mu, by omega, by omega, C133_any_library realLib (1 / 2) (fun y hy => ?_) exMat exMat_symm 2 none 2 _ 6 r h hc mu x x1 x2 0
    (by omega) (by omega) hu⟩
  obtain ⟨s1, s2⟩ := realLib_sqrt y hy
  exact ⟨s1, by rw [s2]; linarith⟩

/-- One electron on two sites: the two values are the energies of two orthonormal states. -/
example : ∃ r, performInitial exEnv realLib (fun _ => false) initialCase = .ok r ∧ r.eig.eigvals.length = 2 ∧
    ∃ (mu : Fin r.eig.eigvals.length → ℝ) (ψ : Fin r.eig.eigvals.length → Conf 2 → ℝ),
      (∀ i j, ∑ σ, ψ i σ * ψ j σ = if i = j then 1 else 0) ∧ (∀ k, InSector 1 1 (ψ k)) ∧
      (∀ k σ, tjOp initialCase.interactions (fun s => gridPos 2 s) initialCase.bools (ψ k) σ = mu k * ψ k σ) ∧
      ∀ k, |mu k - r.eig.eigvals[k]| ≤ √(r.eig.eigvals.length : ℝ) * 0 := by
  have hb : constructBasis initialCase.config = .ok [[0, 1], [1, 0]] := by decide +kernel
  have hf : initialCase.config.Full := by unfold Config.Full; decide +kernel
  have hn : initialCase.config.nholes + initialCase.config.nbeta ≤ initialCase.config.nsites := by decide +kernel
  have ho : HolesInOrder exEnv.toSetSem initialCase.config := C39_one_hole_in_order _ _ (by decide +kernel)
  obtain ⟨r, h1, h2, h3, h4, h5, h6⟩ := C80_no_failure exEnv realLib realLib_qr realLib_rand (fun _ => false) initialCase 2 1 1
    initialCase_rect hf hn (fun _ => ho) _ hb (by decide +kernel) (by decide +kernel) (by intro rows h; cases h)
  have hd : r.ham.dim = 2 := h3
  obtain ⟨hb', hH, ⟨guess, hm, hg⟩, _⟩ := performInitial_ok h1
  obtain rfl := hg.2 rfl
  have hsym : r.ham.toMatrix.IsSymm := by
    ext i j
    exact C32_symmetric exEnv initialCase.config 2 1 1 initialCase_rect hf hn initialCase.interactions initialCase.bools [] true
      r.determinants hb' r.ham hH j i
  obtain ⟨r', q1, q2⟩ := C69_converges realLib realLib_sqrt realLib_eigh realLib_qr realLib_rand r.ham.toMatrix hsym 2 1 0 le_rfl 4
    (by omega) (by omega) (by omega) (by omega)
  obtain rfl := Except.ok.inj (hm.symm.trans q1)
  have hcount : 1 < initialCase.diag.count r.determinants.length := by rw [h2]; decide +kernel
  exact ⟨r, h1, h4, C133_initial exEnv realLib realLib_sqrt realLib_eigh realLib_qr (fun _ => false) initialCase
    2 1 1 initialCase_rect hf hn r h1 q2 (Or.inl hcount)⟩

end TJ
