/-
C80: `perform_initial_computations` as a whole. The returned pairs are approximate eigenpairs of the
textbook Hamiltonian on the functions of the occupations, with the spin numbers of C41.
-/
import Verif.Model.Initial
import Verif.Lemmas.Sector
import Verif.Lemmas.ExactLib
import Verif.Props.Davidson
import Verif.Props.Spin
import Mathlib.Data.List.GetD

namespace TJ

open Finset Matrix

section
variable {c : Config} {dets : List (List Nat)}

theorem getD_ofFn {K : Type} [Zero K] {d : Nat} (x : Fin d → K) {k : Nat} (hk : k < d) : (List.ofFn x).getD k 0 = x ⟨k, hk⟩ := by
  rw [List.getD_eq_getElem _ 0 (by simpa using hk), List.getElem_ofFn]

/-- The state of a coefficient array on the occupations. -/
abbrev state {K : Type} [AddCommMonoid K] (c : Config) (dets : List (List Nat)) {d : Nat} (x : Fin d → K) : Conf c.nsites → K :=
  amp c dets (List.ofFn x)

theorem state_conf {K : Type} [Field K] (hb : constructBasis c = .ok dets) {d : Nat} (x : Fin d → K) (hd : d = dets.length)
    {k : Nat} (hk : k < dets.length) : state c dets x (conf c dets[k]) = x ⟨k, hd ▸ hk⟩ := by
  rw [state, amp_conf hb _ hk, getD_ofFn x (hd ▸ hk)]

theorem state_sector {K : Type} [Field K] (hb : constructBasis c = .ok dets) (hn : c.nholes + c.nbeta ≤ c.nsites) {d : Nat}
    (x : Fin d → K) : InSector c.nholes c.nbeta (state c dets x) := by
  intro σ hσ
  by_contra h
  exact hσ (amp_outside hb hn _ h)

theorem state_residue {K : Type} [Field K] (hb : constructBasis c = .ok dets) (hn : c.nholes + c.nbeta ≤ c.nsites) {d : Nat}
    (hd : d = dets.length) (a : K) (x y : Fin d → K) (σ : Conf c.nsites) :
    state c dets (a • x - y) σ = a * state c dets x σ - state c dets y σ := by
  by_cases h : σ.count .hole = c.nholes ∧ σ.count .down = c.nbeta
  · obtain ⟨k, hk, rfl⟩ := exists_conf hb hn h.1 h.2
    rw [state_conf hb _ hd hk, state_conf hb _ hd hk, state_conf hb _ hd hk]
    rfl
  · rw [state, state, state, amp_outside hb hn _ h, amp_outside hb hn _ h, amp_outside hb hn _ h]; ring

theorem state_dot {K : Type} [Field K] (hb : constructBasis c = .ok dets) (hn : c.nholes + c.nbeta ≤ c.nsites) {d : Nat}
    (hd : d = dets.length) (x y : Fin d → K) : x ⬝ᵥ y = ∑ σ, state c dets x σ * state c dets y σ := by
  rw [sum_amp hb hn _ (fun σ h => by rw [state, amp_outside hb hn _ h, zero_mul])]
  subst hd
  rw [dotProduct, ← Fin.sum_univ_eq_sum_range (fun k => state c dets x (conf c (dets.getD k [])) * state c dets y (conf c (dets.getD k [])))]
  refine sum_congr rfl fun i _ => ?_
  rw [List.getD_eq_getElem dets [] i.2, state_conf hb _ rfl i.2, state_conf hb _ rfl i.2]

/-- The product with the matrix is the textbook operator. -/
theorem state_mulVec {K : Type} [Field K] (hb : constructBasis c = .ok dets) (hn : c.nholes + c.nbeta ≤ c.nsites) {H : SpMat K}
    (hd : H.dim = dets.length) {I : Interactions K} {pos : Fin c.nsites → Pt} {B : BoolInteractions}
    (he : ∀ i j (hi : i < dets.length) (hj : j < dets.length), H.entry i j = hamEl I pos B (conf c dets[i]) (conf c dets[j]))
    (x : Fin H.dim → K) : state c dets (H.toMatrix *ᵥ x) = tjOp I pos B (state c dets x) := by
  refine amp_ext hb hn ?_ ?_
  · intro k hk
    rw [getD_ofFn _ (by omega)]
    unfold tjOp
    rw [sum_amp hb hn _ (fun σ h => by rw [state, amp_outside hb hn _ h, mul_zero]), mulVec, dotProduct, ← hd,
      ← Fin.sum_univ_eq_sum_range (fun j => hamEl I pos B (conf c dets[k]) (conf c (dets.getD j [])) *
        state c dets x (conf c (dets.getD j [])))]
    refine sum_congr rfl fun i _ => ?_
    have hi : (i : Nat) < dets.length := by have := i.2; omega
    rw [List.getD_eq_getElem dets [] hi, state_conf hb _ hd hi, ← he k i hk hi]
    rfl
  · intro σ hσ
    refine sum_eq_zero fun τ _ => ?_
    by_cases h : τ.count .hole = c.nholes ∧ τ.count .down = c.nbeta
    · by_cases h1 : σ.count .hole = c.nholes
      · rw [hamEl_sector I pos B .down, zero_mul]
        exact fun e => hσ ⟨h1, e ▸ h.2⟩
      · rw [hamEl_sector I pos B .hole, zero_mul]
        exact fun e => h1 (e ▸ h.1)
    · rw [state, amp_outside hb hn _ h, mul_zero]

end

/-! ### C80 -/

/-- The number of eigenpairs that are computed, for a Hamiltonian of dimension `d`. -/
def Diagonalization.count {K : Type} (g : Diagonalization K) (d : Nat) : Nat := min g.nbVal (if g.dimMax = 0 then d else g.dimMax)

/-- What a successful run has done. -/
theorem performInitial_ok {E : Env} {L : LinAlg ℝ} {swap : List ℝ → Bool} {D : Data ℝ} {r : InitialResult}
    (h : performInitial E L swap D = .ok r) :
    constructBasis D.config = .ok r.determinants ∧
    buildHamiltonian E D.config D.interactions r.determinants D.bools [] true = .ok r.ham ∧
    (∃ guess, modifiedDavidson L r.ham.toMatrix D.diag.nbVal guess D.diag.stp D.diag.tol D.diag.dimMax = .ok r.eig ∧
      (guess = none ↔ D.diag.guess = none)) ∧
    spinNumbers E.toSetSem swap D r.eig.eigvects = .ok r.spins := by
  unfold performInitial at h
  obtain ⟨dets, h1, h⟩ := bind_eq_ok.1 h
  obtain ⟨ham, h2, h⟩ := bind_eq_ok.1 h
  obtain ⟨guess, h3, h⟩ := bind_eq_ok.1 h
  obtain ⟨e, h4, h⟩ := bind_eq_ok.1 h
  obtain ⟨spins, h5, h⟩ := bind_eq_ok.1 h
  obtain rfl := Except.ok.inj h
  refine ⟨h1, h2, ⟨guess, h4, ?_⟩, h5⟩
  unfold Diagonalization.guessArg at h3
  cases hg : D.diag.guess with
  | none =>
    rw [hg] at h3
    obtain rfl := Except.ok.inj h3
    simp
  | some rows =>
    rw [hg] at h3
    change some <$> guessColumns ham.dim rows = _ at h3
    cases hr : guessColumns ham.dim rows with
    | error e => rw [hr] at h3; cases h3
    | ok g =>
      rw [hr] at h3
      obtain rfl := Except.ok.inj h3
      simp

/-- The results of a `mapM` in order. -/
theorem mapM_results {α β : Type} {f : α → Py β} : ∀ {l : List α} {m : List β}, l.mapM f = .ok m →
    m.length = l.length ∧ ∀ k (hk : k < l.length), ∃ y, m[k]? = some y ∧ f l[k] = .ok y := by
  intro l
  induction l with
  | nil =>
    intro m h
    obtain rfl := Except.ok.inj h
    exact ⟨rfl, fun k hk => absurd hk (Nat.not_lt_zero _)⟩
  | cons a l ih =>
    intro m h
    rw [List.mapM_cons] at h
    obtain ⟨y, h1, h⟩ := bind_eq_ok.1 h
    obtain ⟨ys, h2, h⟩ := bind_eq_ok.1 h
    obtain rfl := Except.ok.inj h
    obtain ⟨i1, i2⟩ := ih h2
    refine ⟨by simp [i1], ?_⟩
    intro k hk
    cases k with
    | zero => exact ⟨y, rfl, h1⟩
    | succ k => exact i2 k (by simpa using hk)

/-- C80. On an unrestricted rectangular lattice, with a library that meets the shapes of `qr` and `rand`, the
computation ends without exception for every choice of switches and couplings, unless more eigenpairs are to be computed than there are
determinants; it returns the basis, the requested number of eigenpairs, and one spin number per eigenvector if these are selected. -/
theorem C80_no_failure_count (E : Env) (L : LinAlg ℝ) (hq : L.ExactQr) (hrand : ∀ d m, (L.rand d m).length = m) (swap : List ℝ → Bool)
    (D : Data ℝ) (nbh nbv nb : Nat) (hc : RectConf D.config nbh nbv nb) (hf : D.config.Full)
    (hn : D.config.nholes + D.config.nbeta ≤ D.config.nsites) (ho : D.spinMult = true → HolesInOrder E.toSetSem D.config)
    (dets : List (List Nat)) (hb : constructBasis D.config = .ok dets) (hs : 1 ≤ D.diag.stp) (hv : D.diag.count dets.length ≤ dets.length)
    (hg : ∀ rows, D.diag.guess = some rows → rows.length = dets.length ∧ (rows.headD []).length = D.diag.count dets.length) :
    ∃ r, performInitial E L swap D = .ok r ∧ r.determinants = dets ∧ r.ham.dim = dets.length ∧
      r.eig.eigvals.length = D.diag.count dets.length ∧ r.eig.eigvects.length = D.diag.count dets.length ∧
      r.spins.length = if D.spinMult then D.diag.count dets.length else 0 := by
  obtain ⟨H, h1, h2, _, _⟩ := buildHamiltonian_spec D.interactions (hc.tj E) hf hn hb D.bools [] true
  have hm : D.diag.count H.dim ≤ H.dim := by rw [h2]; exact hv
  obtain ⟨guess, g1, g2⟩ : ∃ guess : Option (List (Fin H.dim → ℝ)), D.diag.guessArg H.dim = .ok guess ∧
      ∀ g, guess = some g → g.length = D.diag.count H.dim := by
    unfold Diagonalization.guessArg
    cases hgg : D.diag.guess with
    | none => exact ⟨none, rfl, by simp⟩
    | some rows =>
      obtain ⟨r1, r2⟩ := hg rows hgg
      refine ⟨some ((List.range (rows.headD []).length).map (fun j i => (rows.getD i []).getD j 0)), ?_, ?_⟩
      · show some <$> guessColumns H.dim rows = _
        unfold guessColumns
        rw [if_pos (by omega)]
        rfl
      · rintro g ⟨rfl⟩
        rw [List.length_map, List.length_range, r2, h2]
  obtain ⟨r, hr⟩ := C50_no_failure L hq hrand H.toMatrix D.diag.nbVal guess D.diag.stp hs D.diag.tol D.diag.dimMax hm g2
  obtain ⟨c1, c2, _⟩ := C50_converged L H.toMatrix D.diag.nbVal guess D.diag.stp D.diag.tol D.diag.dimMax r hr
  have hsp : ∃ spins, spinNumbers E.toSetSem swap D r.eigvects = .ok spins ∧ spins.length = if D.spinMult then r.eigvects.length else 0 := by
    unfold spinNumbers
    by_cases hsm : D.spinMult = true
    · rw [if_pos hsm, if_pos hsm]
      obtain ⟨spins, s1, _⟩ := mapM_ok_exists (f := fun v => computeSpinNumber E.toSetSem (swap (List.ofFn v)) D.config (List.ofFn v))
        (P := fun _ _ => True) r.eigvects (fun v _ => by
          obtain ⟨_, s, _, _, hh, _⟩ := C41_always_a_number E.toSetSem (swap (List.ofFn v)) D.config hf (ho hsm) hn dets hb (List.ofFn v)
            (by rw [List.length_ofFn, h2])
          exact ⟨_, hh, trivial⟩)
      exact ⟨spins, s1, (mapM_results s1).1⟩
    · rw [if_neg hsm, if_neg hsm]
      exact ⟨[], rfl, rfl⟩
  obtain ⟨spins, s1, s2⟩ := hsp
  refine ⟨⟨dets, H, r, spins⟩, ?_, rfl, h2, ?_, ?_, ?_⟩
  · unfold performInitial
    exact bind_ok hb (bind_ok h1 (bind_ok g1 (bind_ok hr (bind_ok s1 rfl))))
  · rw [← h2]; exact c1
  · rw [← h2]; exact c2.trans c1
  · show spins.length = _
    rw [s2, c2, c1, ← h2]
    rfl

/-- C80. In particular if at most as many eigenpairs are asked for as there are determinants. -/
theorem C80_no_failure (E : Env) (L : LinAlg ℝ) (hq : L.ExactQr) (hrand : ∀ d m, (L.rand d m).length = m) (swap : List ℝ → Bool)
    (D : Data ℝ) (nbh nbv nb : Nat) (hc : RectConf D.config nbh nbv nb) (hf : D.config.Full)
    (hn : D.config.nholes + D.config.nbeta ≤ D.config.nsites) (ho : D.spinMult = true → HolesInOrder E.toSetSem D.config)
    (dets : List (List Nat)) (hb : constructBasis D.config = .ok dets) (hs : 1 ≤ D.diag.stp) (hv : D.diag.nbVal ≤ dets.length)
    (hg : ∀ rows, D.diag.guess = some rows → rows.length = dets.length ∧ (rows.headD []).length = D.diag.count dets.length) :
    ∃ r, performInitial E L swap D = .ok r ∧ r.determinants = dets ∧ r.ham.dim = dets.length ∧
      r.eig.eigvals.length = D.diag.count dets.length ∧ r.eig.eigvects.length = D.diag.count dets.length ∧
      r.spins.length = if D.spinMult then D.diag.count dets.length else 0 :=
  C80_no_failure_count E L hq hrand swap D nbh nbv nb hc hf hn ho dets hb hs (by unfold Diagonalization.count; omega) hg

/-- C80. If the diagonalisation stopped before its budget, every returned pair is an eigenpair of the textbook
Hamiltonian up to the tolerance: the state is in the sector of the configuration, and the squared norm of
`lam ψ - H ψ` is at most `tol²`. -/
theorem C80_residues (E : Env) (L : LinAlg ℝ) (hL : L.ExactSqrt) (swap : List ℝ → Bool)
    (D : Data ℝ) (nbh nbv nb : Nat) (hc : RectConf D.config nbh nbv nb) (hf : D.config.Full)
    (hn : D.config.nholes + D.config.nbeta ≤ D.config.nsites) (r : InitialResult) (h : performInitial E L swap D = .ok r) :
    r.eig.eigvects.length = r.eig.eigvals.length ∧ (r.eig.trace.length < D.diag.stp → r.eig.converged = true) ∧
    (r.eig.converged = true → ∀ k (h1 : k < r.eig.eigvals.length) (h2 : k < r.eig.eigvects.length),
      let ψ := amp D.config r.determinants (List.ofFn r.eig.eigvects[k])
      InSector D.config.nholes D.config.nbeta ψ ∧ 0 ≤ D.diag.tol ∧
      ∑ σ, (r.eig.eigvals[k] * ψ σ - tjOp D.interactions (fun s => gridPos (nbh * nb) s) D.bools ψ σ) ^ 2 ≤ D.diag.tol ^ 2) := by
  obtain ⟨hb, hH, ⟨guess, hd, _⟩, _⟩ := performInitial_ok h
  obtain ⟨H, e1, e2, _, _⟩ := buildHamiltonian_spec D.interactions (hc.tj E) hf hn hb D.bools [] true
  have eH := Except.ok.inj (hH.symm.trans e1)
  have hdim : r.ham.dim = r.determinants.length := by rw [eH]; exact e2
  obtain ⟨c1, c2, c3, c4, c5⟩ := C50_converged L r.ham.toMatrix D.diag.nbVal guess D.diag.stp D.diag.tol D.diag.dimMax r.eig hd
  refine ⟨c2, c4, ?_⟩
  intro hcv k h1 h2
  have he := C31_matrix_elements E D.config nbh nbv nb hc hf hn D.interactions D.bools [] true r.determinants hb r.ham hH
  obtain ⟨t0, t1⟩ := (norm_le_iff hL _ _).1 (c5.1 hcv k h1 h2)
  refine ⟨state_sector hb hn _, t0, ?_⟩
  rw [state_dot hb hn hdim] at t1
  rw [pow_two D.diag.tol]
  refine le_trans (le_of_eq ?_) t1
  refine sum_congr rfl fun σ _ => ?_
  rw [state_residue hb hn hdim, state_mulVec hb hn hdim he, pow_two]

/-- C80. In exact arithmetic, after convergence, every returned value is within `tol` of an exact eigenvalue of the
textbook Hamiltonian in the sector of the configuration. (The hypothesis on the number of pairs or of iterations
is that of C51: a single random guess is not normalised.) -/
theorem C80_near_eigenvalue (E : Env) (L : LinAlg ℝ) (hL : L.ExactSqrt) (he : L.ExactEigh) (hq : L.ExactQr) (swap : List ℝ → Bool)
    (D : Data ℝ) (nbh nbv nb : Nat) (hc : RectConf D.config nbh nbv nb) (hf : D.config.Full)
    (hn : D.config.nholes + D.config.nbeta ≤ D.config.nsites) (r : InitialResult) (h : performInitial E L swap D = .ok r)
    (hcv : r.eig.converged = true) (hm : 1 < D.diag.count r.determinants.length ∨ 2 ≤ r.eig.trace.length) :
    ∀ lam ∈ r.eig.eigvals, ∃ (mu : ℝ) (ψ : Conf D.config.nsites → ℝ), (∃ σ, ψ σ ≠ 0) ∧ InSector D.config.nholes D.config.nbeta ψ ∧
      (∀ σ, tjOp D.interactions (fun s => gridPos (nbh * nb) s) D.bools ψ σ = mu * ψ σ) ∧ |mu - lam| ≤ D.diag.tol := by
  obtain ⟨hb, hH, ⟨guess, hd, _⟩, _⟩ := performInitial_ok h
  obtain ⟨H, e1, e2, _, _⟩ := buildHamiltonian_spec D.interactions (hc.tj E) hf hn hb D.bools [] true
  have eH := Except.ok.inj (hH.symm.trans e1)
  have hdim : r.ham.dim = r.determinants.length := by rw [eH]; exact e2
  have hel := C31_matrix_elements E D.config nbh nbv nb hc hf hn D.interactions D.bools [] true r.determinants hb r.ham hH
  have hsym : r.ham.toMatrix.IsSymm := by
    ext i j
    exact C32_symmetric E D.config nbh nbv nb hc hf hn D.interactions D.bools [] true r.determinants hb r.ham hH j i
  intro lam hl
  obtain ⟨mu, x, x0, x1, x2⟩ := C68_near_eigenvalue L hL he hq r.ham.toMatrix hsym D.diag.nbVal guess D.diag.stp D.diag.tol
    D.diag.dimMax r.eig hd hcv (by
      rcases hm with hm | hm
      · left; rw [hdim]; exact hm
      · right; right; exact hm) lam hl
  refine ⟨mu, state D.config r.determinants x, ?_, state_sector hb hn x, ?_, x2⟩
  · by_contra hz
    push Not at hz
    apply x0
    funext i
    have := hz (conf D.config (r.determinants[(i : Nat)]'(by have := i.2; omega)))
    rw [state_conf hb x hdim] at this
    exact this
  · intro σ
    rw [← state_mulVec hb hn hdim hel, x1]
    have := state_residue hb hn hdim mu x 0 σ
    rw [sub_zero] at this
    rw [this, show state D.config r.determinants (0 : Fin r.ham.dim → ℝ) σ = 0 from ?_, sub_zero]
    have h0 := state_residue hb hn hdim 0 (0 : Fin r.ham.dim → ℝ) (0 : Fin r.ham.dim → ℝ) σ
    rw [smul_zero, sub_zero] at h0
    linarith

/-- C80. With the hypothesis of C39 on the order of hole sites: if a returned vector has total spin s, i.e. is an
eigenvector of the total spin operator with value s (s + 1), 2 s = m, then the number stored with it is s. -/
theorem C80_spins (E : Env) (L : LinAlg ℝ) (swap : List ℝ → Bool) (D : Data ℝ) (hf : D.config.Full)
    (hn : D.config.nholes + D.config.nbeta ≤ D.config.nsites) (hsm : D.spinMult = true) (ho : HolesInOrder E.toSetSem D.config)
    (r : InitialResult) (h : performInitial E L swap D = .ok r) (hdim : r.ham.dim = r.determinants.length)
    (k : Nat) (hk : k < r.eig.eigvects.length) (m : Nat)
    (hψ : ∃ σ, amp D.config r.determinants (List.ofFn r.eig.eigvects[k]) σ ≠ 0)
    (hm : ∀ σ, spin2 (amp D.config r.determinants (List.ofFn r.eig.eigvects[k])) σ =
      ((m : ℝ) / 2 * ((m : ℝ) / 2 + 1)) * amp D.config r.determinants (List.ofFn r.eig.eigvects[k]) σ) :
    r.spins[k]? = some (.num ((m : ℝ) / 2)) := by
  obtain ⟨hb, _, _, hs⟩ := performInitial_ok h
  unfold spinNumbers at hs
  rw [if_pos hsm] at hs
  set v := r.eig.eigvects[k] with hv
  have hlen : (List.ofFn v).length = r.determinants.length := by rw [List.length_ofFn, hdim]
  obtain ⟨w, w1, w2, w3⟩ := C40_total_spin_partial E.toSetSem D.config hf ho hn r.determinants hb (List.ofFn v) hlen
  have hpos : vdot (List.ofFn v) (List.ofFn v) ≠ 0 := by
    rw [vdot_amp hb hn _ _ hlen hlen]
    obtain ⟨σ, hσ⟩ := hψ
    apply ne_of_gt
    refine lt_of_lt_of_le (mul_self_pos.2 hσ) ?_
    exact single_le_sum (f := fun σ => amp D.config r.determinants (List.ofFn v) σ * amp D.config r.determinants (List.ofFn v) σ)
      (fun τ _ => mul_self_nonneg _) (mem_univ σ)
  have hexp : computeS2ExpVal E.toSetSem D.config (List.ofFn v) = .ok ((m : ℝ) / 2 * ((m : ℝ) / 2 + 1)) := by
    unfold computeS2ExpVal
    dsimp only
    rw [if_pos hpos, w1]
    have : vdot (List.ofFn v) w = (m : ℝ) / 2 * ((m : ℝ) / 2 + 1) * vdot (List.ofFn v) (List.ofFn v) := by
      rw [vdot_amp hb hn _ _ hlen w2, vdot_amp hb hn _ _ hlen hlen, amp_S2 hb hn _ _ w3, mul_sum]
      refine sum_congr rfl fun σ _ => ?_
      rw [hm σ]; ring
    show Except.ok (vdot (List.ofFn v) w / vdot (List.ofFn v) (List.ofFn v)) = _
    rw [this, mul_div_cancel_right₀ _ hpos]
  obtain ⟨s, s1, rfl⟩ := C41_spin_number_exact E.toSetSem (swap (List.ofFn v)) D.config (List.ofFn v) m hexp
  obtain ⟨s, g1, g2⟩ := (mapM_results hs).2 k hk
  rw [g1]
  have := g2.symm.trans s1
  rw [Except.ok.inj this]

/-! ### A case that meets the hypotheses -/

/-- A hole and a down spin on two sites: both eigenpairs, exact library. -/
noncomputable def initialCase : Data ℝ :=
  ⟨rectConf 2 1 1 1 1, ⟨-1, 2, 3, 4, 5, 6, 7, 8, 9, 10⟩, ⟨2, 1, 0, 4, none⟩, ⟨true, true, true, true, true, true⟩, true⟩

theorem initialCase_rect : RectConf initialCase.config 2 1 1 := rectConf_ok 2 1 1 1 1 (by omega) (by omega) (by omega)

example : ∃ r, performInitial exEnv realLib (fun _ => false) initialCase = .ok r ∧ r.eig.converged = true ∧
    r.eig.eigvals.length = 2 ∧ r.spins.length = 2 ∧ 1 < initialCase.diag.count r.determinants.length ∧
    ∀ lam ∈ r.eig.eigvals, ∃ (mu : ℝ) (ψ : Conf 2 → ℝ), (∃ σ, ψ σ ≠ 0) ∧ InSector 1 1 ψ ∧
      (∀ σ, tjOp initialCase.interactions (fun s => gridPos 2 s) initialCase.bools ψ σ = mu * ψ σ) ∧ |mu - lam| ≤ 0 := by
  have hb : constructBasis initialCase.config = .ok [[0, 1], [1, 0]] := by decide +kernel
  have hf : initialCase.config.Full := by unfold Config.Full; decide +kernel
  have hn : initialCase.config.nholes + initialCase.config.nbeta ≤ initialCase.config.nsites := by decide +kernel
  have ho : HolesInOrder exEnv.toSetSem initialCase.config := C39_one_hole_in_order _ _ (by decide +kernel)
  obtain ⟨r, h1, h2, h3, h4, h5, h6⟩ := C80_no_failure exEnv realLib realLib_qr realLib_rand (fun _ => false) initialCase 2 1 1
    initialCase_rect hf hn (fun _ => ho) _ hb (by decide +kernel) (by decide +kernel) (by intro rows h; cases h)
  have hd : r.ham.dim = 2 := h3
  obtain ⟨hb', hH, ⟨guess, hm, hg⟩, _⟩ := performInitial_ok h1
  obtain rfl := hg.2 rfl
  have hsym : r.ham.toMatrix.IsSymm := by
    ext i j
    exact C32_symmetric exEnv initialCase.config 2 1 1 initialCase_rect hf hn initialCase.interactions initialCase.bools [] true
      r.determinants hb' r.ham hH j i
  obtain ⟨r', q1, q2⟩ := C69_converges realLib realLib_sqrt realLib_eigh realLib_qr realLib_rand r.ham.toMatrix hsym 2 1 0 le_rfl 4
    (by omega) (by omega) (by omega) (by omega)
  obtain rfl := Except.ok.inj (hm.symm.trans q1)
  have hcount : 1 < initialCase.diag.count r.determinants.length := by rw [h2]; decide +kernel
  exact ⟨r, h1, q2, h4, h6, hcount, C80_near_eigenvalue exEnv realLib realLib_sqrt realLib_eigh realLib_qr (fun _ => false) initialCase
    2 1 1 initialCase_rect hf hn r h1 q2 (Or.inl hcount)⟩

/-- A single electron on two sites has spin 1/2. -/
theorem spin2_single {ψ : Conf 2 → ℝ} (h : InSector 1 1 ψ) (σ : Conf 2) : spin2 ψ σ = 3 / 4 * ψ σ := by
  have hz : ∀ σ : Conf 2, ¬ (σ.count .hole = 1 ∧ σ.count .down = 1) → ψ σ = 0 := fun σ hσ => by
    by_contra h0
    exact hσ (h σ h0)
  have key : ∀ σ : Conf 2, (σ.count .hole = 1 ∧ σ.count .down = 1) →
      σ.electrons = 1 ∧ ∀ a b, ¬ (a < b ∧ σ a ≠ .hole ∧ σ b ≠ .hole) := by decide
  by_cases hσ : σ.count .hole = 1 ∧ σ.count .down = 1
  · obtain ⟨k1, k2⟩ := key σ hσ
    unfold spin2
    rw [k1, sum_eq_zero (fun a _ => sum_eq_zero (fun b _ => if_neg (k2 a b)))]
    norm_num
  · unfold spin2
    have : ∀ a b, ψ (exch σ a b) = 0 := fun a b => hz _ (by rw [count_exch, count_exch]; exact hσ)
    simp [this, hz σ hσ]

example (r : InitialResult) (h : performInitial exEnv realLib (fun _ => false) initialCase = .ok r) :
    r.spins[0]? = some (.num ((1 : Nat) / 2)) ∧ r.spins[1]? = some (.num ((1 : Nat) / 2)) := by
  have hb : constructBasis initialCase.config = .ok [[0, 1], [1, 0]] := by decide +kernel
  have hf : initialCase.config.Full := by unfold Config.Full; decide +kernel
  have hn : initialCase.config.nholes + initialCase.config.nbeta ≤ initialCase.config.nsites := by decide +kernel
  have ho : HolesInOrder exEnv.toSetSem initialCase.config := C39_one_hole_in_order _ _ (by decide +kernel)
  obtain ⟨r', h1, h2, h3, h4, h5, h6⟩ := C80_no_failure exEnv realLib realLib_qr realLib_rand (fun _ => false) initialCase 2 1 1
    initialCase_rect hf hn (fun _ => ho) _ hb (by decide +kernel) (by decide +kernel) (by intro rows h; cases h)
  obtain rfl := Except.ok.inj (h.symm.trans h1)
  obtain ⟨hb', hH, ⟨guess, hm, hg⟩, _⟩ := performInitial_ok h1
  have hsym : r.ham.toMatrix.IsSymm := by
    ext i j
    exact C32_symmetric exEnv initialCase.config 2 1 1 initialCase_rect hf hn initialCase.interactions initialCase.bools [] true
      r.determinants hb' r.ham hH j i
  have hd : r.ham.dim = r.determinants.length := by rw [h2]; exact h3
  obtain ⟨o1, _⟩ := C51_ritz_bounds realLib realLib_eigh realLib_qr r.ham.toMatrix hsym _ guess _ _ _ r.eig hm
    (Or.inl (by show 1 < min 2 (if 4 = 0 then r.ham.dim else 4); simp))
  have key : ∀ k, k < r.eig.eigvects.length → r.spins[k]? = some (.num ((1 : Nat) / 2)) := by
    intro k hk
    refine C80_spins exEnv realLib (fun _ => false) initialCase hf hn rfl ho r h hd k hk 1 ?_ ?_
    · by_contra h0
      push Not at h0
      have h1 : r.eig.eigvects[k] ⬝ᵥ r.eig.eigvects[k] = 1 := ((ortho_iff _).1 o1).1 _ (List.getElem_mem _)
      rw [state_dot hb' hn hd, sum_eq_zero (fun σ _ => by rw [state, h0 σ, zero_mul])] at h1
      exact zero_ne_one h1
    · intro σ
      refine (spin2_single (state_sector hb' hn r.eig.eigvects[k]) σ).trans ?_
      rw [state]
      norm_num
  have h5' : r.eig.eigvects.length = 2 := h5
  exact ⟨key 0 (by omega), key 1 (by omega)⟩

end TJ
