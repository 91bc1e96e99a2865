/-
Property C145: the hole density that belongs to an energy is the same in all spin sectors.
-/
import Verif.Props.LevelDensity
import Verif.Props.FerroUnique
import Verif.Props.Extensive

namespace TJ

open Finset Matrix

section
variable {n : Nat}

/-- The part of a state with a hole on site `s`. -/
def holePart (s : Fin n) (φ : Conf n → ℝ) : Conf n → ℝ := fun σ => if σ s = .hole then φ σ else 0

theorem exch_hole {σ : Conf n} {a b : Fin n} (ha : σ a ≠ .hole) (hb : σ b ≠ .hole) (s : Fin n) : exch σ a b s = .hole ↔ σ s = .hole := by
  show σ (Equiv.swap a b s) = .hole ↔ _
  by_cases h1 : s = a
  · subst h1
    rw [Equiv.swap_apply_left]
    exact ⟨fun h => absurd h hb, fun h => absurd h ha⟩
  · by_cases h2 : s = b
    · subst h2
      rw [Equiv.swap_apply_right]
      exact ⟨fun h => absurd h ha, fun h => absurd h hb⟩
    · rw [Equiv.swap_apply_of_ne_of_ne h1 h2]

/-- The total spin does not move holes. -/
theorem spin2_holePart (s : Fin n) (φ : Conf n → ℝ) (σ : Conf n) : spin2 (holePart s φ) σ = holePart s (spin2 φ) σ := by
  unfold spin2 holePart
  by_cases h : σ s = .hole
  · rw [if_pos h, if_pos h]
    congr 1
    refine sum_congr rfl fun a _ => sum_congr rfl fun b _ => ?_
    by_cases hc : a < b ∧ σ a ≠ .hole ∧ σ b ≠ .hole
    · rw [if_pos hc, if_pos hc, if_pos ((exch_hole hc.2.1 hc.2.2 s).2 h)]
    · rw [if_neg hc, if_neg hc]
  · rw [if_neg h, if_neg h, mul_zero, zero_add]
    refine sum_eq_zero fun a _ => sum_eq_zero fun b _ => ?_
    by_cases hc : a < b ∧ σ a ≠ .hole ∧ σ b ≠ .hole
    · rw [if_pos hc, if_neg (fun e => h ((exch_hole hc.2.1 hc.2.2 s).1 e)), zero_div, sub_zero]
    · rw [if_neg hc]

/-- Turning spins does not move holes. -/
theorem lower_holePart (s : Fin n) (φ : Conf n → ℝ) (τ : Conf n) : lower (holePart s φ) τ = holePart s (lower φ) τ := by
  show (∑ a, if τ a = .down then holePart s φ (Function.update τ a .up) else 0) =
    if τ s = .hole then (∑ a, if τ a = .down then φ (Function.update τ a .up) else 0) else 0
  by_cases h : τ s = .hole
  · rw [if_pos h]
    refine sum_congr rfl fun a _ => ?_
    by_cases ha : τ a = .down
    · rw [if_pos ha, if_pos ha, holePart, if_pos ((sameHoles_update τ a ha s).1 h)]
    · rw [if_neg ha, if_neg ha]
  · rw [if_neg h]
    refine sum_eq_zero fun a _ => ?_
    by_cases ha : τ a = .down
    · rw [if_pos ha, holePart, if_neg (fun e => h ((sameHoles_update τ a ha s).2 e))]
    · rw [if_neg ha]

/-- The norm of a lowered state of given total spin. -/
theorem lower_norm {h b : Nat} {q : ℝ} {χ : Conf n → ℝ} (hχ : InSector h b χ) (hq : ∀ σ, spin2 χ σ = q * χ σ) :
    ∑ τ, lower χ τ * lower χ τ =
      (q + (((n - h - b : Nat) : ℝ) - b) / 2 - (((n - h - b : Nat) : ℝ) - b) ^ 2 / 4) * ∑ σ, χ σ * χ σ := by
  have l := ladder_norm .down .up (by decide) (by decide) (by decide) χ
  have e1 : ∑ τ, lower χ τ * lower χ τ = ∑ τ : Conf n, (∑ a, if τ a = .down then χ (Function.update τ a .up) else 0) ^ 2 :=
    sum_congr rfl fun τ _ => (sq _).symm
  rw [e1, l, ← sum_add_distrib, mul_sum]
  refine sum_congr rfl fun σ _ => ?_
  by_cases h0 : χ σ = 0
  · rw [h0]
    have : ∀ a b : Fin n, (if a < b ∧ σ a ≠ .hole ∧ σ b ≠ .hole ∧ σ a ≠ σ b then (0 : ℝ) * χ (exch σ a b) else 0) = 0 := by
      intro a b
      split_ifs <;> simp
    simp [this]
  · obtain ⟨c1, c2⟩ := hχ σ h0
    have c3 := count_sum σ
    have c4 : σ.count .up = n - h - b := by omega
    have hs := hq σ
    rw [spin2_eq two_ne_zero] at hs
    have hel : (σ.electrons : ℝ) = ((n - h - b : Nat) : ℝ) + b := by
      have : σ.electrons = σ.count .up + σ.count .down := by
        unfold Conf.electrons
        omega
      rw [this, c4, c2]
      push_cast
      ring
    rw [hel, c4, c2] at hs
    have hx : (∑ a, ∑ b, if a < b ∧ σ a ≠ .hole ∧ σ b ≠ .hole ∧ σ a ≠ σ b then χ σ * χ (exch σ a b) else 0) =
        χ σ * ∑ a, ∑ b, if a < b ∧ σ a ≠ .hole ∧ σ b ≠ .hole ∧ σ a ≠ σ b then χ (exch σ a b) else 0 := by
      rw [mul_sum]
      refine sum_congr rfl fun a _ => ?_
      rw [mul_sum]
      refine sum_congr rfl fun b _ => ?_
      rw [mul_ite, mul_zero]
    rw [hx, c4]
    have hs' := eq_sub_of_add_eq' hs
    rw [hs']
    ring

/-- A state of given energy and spin has a partner with one more down spin, with the same energy, spin and hole densities. -/
theorem multiplet_step (I : Interactions ℝ) (pos : Fin n → Pt) (B : BoolInteractions) (hB : B.bz = B.bij) {h b : Nat} (hb : h + 2 * b < n)
    {μ q : ℝ} {φ : Conf n → ℝ} (hφ : φ ∈ sectorEig I pos B h b μ) (h0 : φ ≠ 0) (hq : ∀ σ, spin2 φ σ = q * φ σ) :
    ∃ ψ ∈ sectorEig I pos B h (b + 1) μ, ψ ≠ 0 ∧ (∀ σ, spin2 ψ σ = q * ψ σ) ∧ ∀ s, born ψ s .hole = born φ s .hole := by
  have hM : ExchKernel (hamEl I pos B) := ham_kernel two_ne_zero I _ B hB
  have hpos : ∀ χ : Conf n → ℝ, χ ≠ 0 → 0 < ∑ σ, χ σ * χ σ := by
    intro χ hχ
    obtain ⟨σ, hσ⟩ := Function.ne_iff.1 hχ
    exact sum_pos' (fun σ _ => mul_self_nonneg _) ⟨σ, mem_univ _, mul_self_pos.2 hσ⟩
  have hl0 : lower φ ≠ 0 := fun h => h0 (lower_injective hb hφ.1 h)
  refine ⟨lower φ, ⟨lower_sector hφ.1, fun σ => ?_⟩, hl0, fun σ => ?_, fun s => ?_⟩
  · unfold tjOp
    rw [lower_comm hM]
    have : (fun σ => ∑ τ, hamEl I pos B σ τ * φ τ) = μ • φ := funext fun σ => hφ.2 σ
    rw [this, LinearMap.map_smul]
    rfl
  · rw [spin2_lower]
    have : spin2 φ = q • φ := funext hq
    rw [this, LinearMap.map_smul]
    rfl
  · have hpart : ∀ χ : Conf n → ℝ, (∑ σ, if σ s = .hole then χ σ * χ σ else 0) = ∑ σ, holePart s χ σ * holePart s χ σ := by
      intro χ
      refine sum_congr rfl fun σ _ => ?_
      unfold holePart
      split_ifs <;> simp
    have n1 := lower_norm hφ.1 hq
    have n2 := lower_norm (χ := holePart s φ) (h := h) (b := b) (q := q) (fun σ hσ => hφ.1 σ (by
        unfold holePart at hσ
        split_ifs at hσ
        · exact hσ
        · exact absurd rfl hσ)) (fun σ => by
        rw [spin2_holePart]
        unfold holePart
        split_ifs
        · exact hq σ
        · rw [mul_zero])
    simp only [lower_holePart] at n2
    have hne : q + (((n - h - b : Nat) : ℝ) - b) / 2 - (((n - h - b : Nat) : ℝ) - b) ^ 2 / 4 ≠ 0 := by
      intro e
      have := hpos _ hl0
      rw [n1, e, zero_mul] at this
      exact lt_irrefl _ this
    unfold born
    rw [hpart, hpart, n2, n1, mul_div_mul_left _ _ hne]

theorem multiplet_many (I : Interactions ℝ) (pos : Fin n → Pt) (B : BoolInteractions) (hB : B.bz = B.bij) {h b : Nat}
    {μ q : ℝ} {φ : Conf n → ℝ} (hφ : φ ∈ sectorEig I pos B h b μ) (h0 : φ ≠ 0) (hq : ∀ σ, spin2 φ σ = q * φ σ) :
    ∀ k, h + 2 * (b + k) ≤ n + 1 → ∃ ψ ∈ sectorEig I pos B h (b + k) μ, ψ ≠ 0 ∧ (∀ σ, spin2 ψ σ = q * ψ σ) ∧
      ∀ s, born ψ s .hole = born φ s .hole
  | 0, _ => ⟨φ, hφ, h0, hq, fun _ => rfl⟩
  | k + 1, hk => by
    obtain ⟨ψ, a1, a2, a3, a4⟩ := multiplet_many I pos B hB hφ h0 hq k (by omega)
    obtain ⟨χ, b1, b2, b3, b4⟩ := multiplet_step I pos B hB (by omega) a1 a2 a3
    exact ⟨χ, b1, b2, b3, fun s => (b4 s).trans (a4 s)⟩

end

/-- An eigenvector of the matrix is a state of its level, and the reported hole density is that of the state. -/
theorem eigenvector_state {c : Config} {dets : List (List Nat)} {E : Env} {nbh nbv nb : Nat} (hc : RectConf c nbh nbv nb) (hf : c.Full)
    (hn : c.nholes + c.nbeta ≤ c.nsites) {I : Interactions ℝ} {B : BoolInteractions} {r : List Nat} {vb : Bool}
    (hb : constructBasis c = .ok dets) {H : SpMat ℝ} (hH : buildHamiltonian E c I dets B r vb = .ok H) {μ : ℝ} (x : Fin H.dim → ℝ) :
    (H.toMatrix *ᵥ x = μ • x ↔ state c dets x ∈ sectorEig I (fun s : Fin c.nsites => gridPos (nbh * nb) s) B c.nholes c.nbeta μ) ∧
    (state c dets x = 0 ↔ x = 0) := by
  obtain ⟨H', g1, hd, _, _⟩ := buildHamiltonian_spec I (hc.tj E) hf hn hb B r vb
  obtain rfl := Except.ok.inj (hH.symm.trans g1)
  have hel := C31_matrix_elements E c nbh nbv nb hc hf hn I B r vb dets hb H hH
  have hop := state_mulVec hb hn hd hel x
  have hsm := (stateMap (K := ℝ) hb hn hd).map_smul μ x
  refine ⟨⟨fun h => ⟨state_sector hb hn x, fun σ => ?_⟩, fun h => ?_⟩, fun h => ?_, fun h => ?_⟩
  · rw [h] at hop
    exact (congrFun hop σ).symm.trans (congrFun hsm σ)
  · apply stateMap_injective (K := ℝ) hb hn hd
    rw [hsm]
    funext σ
    exact (congrFun hop σ).trans (h.2 σ)
  · exact stateMap_injective (K := ℝ) hb hn hd (a₁ := x) (a₂ := 0) (by rw [LinearMap.map_zero]; exact h)
  · rw [h]
    exact (stateMap (K := ℝ) hb hn hd).map_zero

/-- C145. With the static and the flip part of the spin coupling both on or both off: to a state of given energy and total spin there is, in
every less polarised sector with the same number of holes, a state of the same energy and the same total spin for which the same hole densities
are reported. -/
theorem C145_multiplet (E : Env) (c : Config) (nbh nbv nb : Nat) (hc : RectConf c nbh nbv nb) (hf : c.Full) (b' : Nat) (h1 : c.nbeta ≤ b')
    (h2 : c.nholes + 2 * b' ≤ c.nsites) (I : Interactions ℝ) (B : BoolInteractions) (hB : B.bz = B.bij) (r r' : List Nat) (vb vb' : Bool)
    (dets dets' : List (List Nat)) (hb : constructBasis c = .ok dets) (hb' : constructBasis { c with nbeta := b' } = .ok dets')
    (H H' : SpMat ℝ) (hH : buildHamiltonian E c I dets B r vb = .ok H) (hH' : buildHamiltonian E { c with nbeta := b' } I dets' B r' vb' = .ok H')
    (μ q : ℝ) (x : Fin H.dim → ℝ) (hx : x ≠ 0) (hev : H.toMatrix *ᵥ x = μ • x)
    (hq : ∀ σ, spin2 (state c dets x) σ = q * state c dets x σ) :
    ∃ y : Fin H'.dim → ℝ, y ≠ 0 ∧ H'.toMatrix *ᵥ y = μ • y ∧
      (∀ σ, spin2 (state { c with nbeta := b' } dets' y) σ = q * state { c with nbeta := b' } dets' y σ) ∧
      ∃ P, probabilitySpin c dets (List.ofFn x) 0 = .ok P ∧ probabilitySpin { c with nbeta := b' } dets' (List.ofFn y) 0 = .ok P := by
  have hn : c.nholes + c.nbeta ≤ c.nsites := by omega
  have hn' : ({ c with nbeta := b' } : Config).nholes + ({ c with nbeta := b' } : Config).nbeta ≤ ({ c with nbeta := b' } : Config).nsites :=
    show c.nholes + b' ≤ c.nsites by omega
  have hc' := hc.with_nbeta b'
  obtain ⟨G, g1, hd, _, _⟩ := buildHamiltonian_spec I (hc.tj E) hf hn hb B r vb
  obtain rfl := Except.ok.inj (hH.symm.trans g1)
  obtain ⟨G', g1', hd', _, _⟩ := buildHamiltonian_spec I (hc'.tj E) hf hn' hb' B r' vb'
  obtain rfl := Except.ok.inj (hH'.symm.trans g1')
  obtain ⟨s1, s2⟩ := eigenvector_state hc hf hn hb hH (μ := μ) x
  obtain ⟨k, rfl⟩ : ∃ k, b' = c.nbeta + k := ⟨b' - c.nbeta, by omega⟩
  obtain ⟨ψ, a1, a2, a3, a4⟩ := multiplet_many I _ B hB (s1.1 hev) (fun h => hx (s2.1 h)) hq k (by omega)
  obtain ⟨y, hy⟩ := state_surj hb' hn' hd' a1.1
  obtain ⟨t1, t2⟩ := eigenvector_state hc' hf hn' hb' hH' (μ := μ) y
  obtain ⟨P, p1, p2, p3⟩ := probabilitySpin_spec hb hn (List.ofFn x) (by rw [List.length_ofFn, hd]) .hole
  obtain ⟨Q, q1, q2, q3⟩ := probabilitySpin_spec hb' hn' (List.ofFn y) (by rw [List.length_ofFn, hd']) .hole
  refine ⟨y, fun h => a2 (hy.symm.trans (t2.2 h)), t1.2 (hy ▸ a1), fun σ => ?_, P, p1, ?_⟩
  · rw [hy]
    exact a3 σ
  · have : Q = P := by
      apply List.ext_getElem (p2.trans q2.symm).symm
      intro i hi hi'
      have e := q3 ⟨i, q2 ▸ hi⟩
      have e' := p3 ⟨i, p2 ▸ hi'⟩
      rw [List.getD_eq_getElem _ _ hi] at e
      rw [List.getD_eq_getElem _ _ hi'] at e'
      rw [e, e']
      show born (state _ dets' y) _ _ = _
      rw [hy]
      exact a4 ⟨i, p2 ▸ hi'⟩
    rw [← this]
    exact q1

theorem born_multiple {n : Nat} {a : ℝ} (ha : a ≠ 0) (φ : Conf n → ℝ) (s : Fin n) (o : Occ) : born (a • φ) s o = born φ s o := by
  have e1 : (∑ σ, if σ s = o then (a • φ) σ * (a • φ) σ else 0) = a * a * ∑ σ, if σ s = o then φ σ * φ σ else 0 := by
    rw [mul_sum]
    refine sum_congr rfl fun σ _ => ?_
    split_ifs
    · rw [Pi.smul_apply, smul_eq_mul]; ring
    · rw [mul_zero]
  have e2 : (∑ σ, (a • φ) σ * (a • φ) σ) = a * a * ∑ σ, φ σ * φ σ := by
    rw [mul_sum]
    exact sum_congr rfl fun σ _ => by rw [Pi.smul_apply, smul_eq_mul]; ring
  unfold born
  rw [e1, e2, mul_div_mul_left _ _ (mul_ne_zero ha ha)]

/-- A state of a level of one dimension has a definite total spin. -/
theorem definite_spin {n : Nat} (I : Interactions ℝ) (pos : Fin n → Pt) (B : BoolInteractions) (hB : B.bz = B.bij) {h b : Nat} {μ : ℝ}
    (h1 : Module.finrank ℝ (sectorEig I pos B h b μ) = 1) {φ : Conf n → ℝ} (hφ : φ ∈ sectorEig I pos B h b μ) (h0 : φ ≠ 0) :
    ∃ q, ∀ σ, spin2 φ σ = q * φ σ := by
  have hM : ExchKernel (hamEl I pos B) := ham_kernel two_ne_zero I _ B hB
  have hm : spin2 φ ∈ sectorEig I pos B h b μ := by
    refine ⟨fun σ hσ => ?_, fun σ => ?_⟩
    · by_contra hcon
      refine hσ ?_
      unfold spin2
      rw [show φ σ = 0 from by_contra fun g => hcon (hφ.1 σ g), mul_zero, zero_add]
      refine sum_eq_zero fun a _ => sum_eq_zero fun b _ => ?_
      have : φ (exch σ a b) = 0 := by
        by_contra g
        have := hφ.1 _ g
        have e : ∀ o, (exch σ a b).count o = σ.count o := fun o => count_comp σ (Equiv.swap a b) o
        rw [e, e] at this
        exact hcon this
      rw [this, zero_div, sub_zero, ite_self]
    · unfold tjOp
      rw [ExchKernel.comm hM]
      have : (fun σ => ∑ τ, hamEl I pos B σ τ * φ τ) = μ • φ := funext fun σ => hφ.2 σ
      rw [this]
      obtain ⟨M, _, m2⟩ := spin2_kernel (n := n)
      rw [← m2, ← m2, mul_sum]
      exact sum_congr rfl fun τ _ => by rw [Pi.smul_apply, smul_eq_mul]; ring
  obtain ⟨q, hq⟩ := (finrank_eq_one_iff_of_nonzero' ⟨φ, hφ⟩ (fun h => h0 (congrArg Subtype.val h))).1 h1 ⟨_, hm⟩
  exact ⟨q, fun σ => (congrFun (congrArg Subtype.val hq) σ).symm⟩

/-- C145. An energy of a sector that is not degenerate in a less polarised sector: the hole densities reported in the two sectors are the
same, whichever eigenvectors the solver returned. -/
theorem C145_pictures (E : Env) (c : Config) (nbh nbv nb : Nat) (hc : RectConf c nbh nbv nb) (hf : c.Full) (b' : Nat) (h1 : c.nbeta ≤ b')
    (h2 : c.nholes + 2 * b' ≤ c.nsites) (I : Interactions ℝ) (B : BoolInteractions) (hB : B.bz = B.bij) (r r' : List Nat) (vb vb' : Bool)
    (dets dets' : List (List Nat)) (hb : constructBasis c = .ok dets) (hb' : constructBasis { c with nbeta := b' } = .ok dets')
    (H H' : SpMat ℝ) (hH : buildHamiltonian E c I dets B r vb = .ok H) (hH' : buildHamiltonian E { c with nbeta := b' } I dets' B r' vb' = .ok H')
    (μ : ℝ) (hone : Module.finrank ℝ (Module.End.eigenspace (Matrix.toLin' H'.toMatrix) μ) = 1)
    (x : Fin H.dim → ℝ) (hx : x ≠ 0) (hev : H.toMatrix *ᵥ x = μ • x) (y : Fin H'.dim → ℝ) (hy : y ≠ 0) (hev' : H'.toMatrix *ᵥ y = μ • y) :
    ∃ P, probabilitySpin c dets (List.ofFn x) 0 = .ok P ∧ probabilitySpin { c with nbeta := b' } dets' (List.ofFn y) 0 = .ok P := by
  have hn : c.nholes + c.nbeta ≤ c.nsites := by omega
  have hn' : ({ c with nbeta := b' } : Config).nholes + ({ c with nbeta := b' } : Config).nbeta ≤ ({ c with nbeta := b' } : Config).nsites :=
    show c.nholes + b' ≤ c.nsites by omega
  have hc' := hc.with_nbeta b'
  obtain ⟨s1, s2⟩ := eigenvector_state hc hf hn hb hH (μ := μ) x
  have hone2 := hone
  rw [eigenspace_map hc' hf hn' hb' hH'] at hone2
  have hle : Module.finrank ℝ (sectorEig I (fun s : Fin c.nsites => gridPos (nbh * nb) s) B c.nholes c.nbeta μ) ≤ 1 := by
    obtain ⟨k, rfl⟩ : ∃ k, b' = c.nbeta + k := ⟨b' - c.nbeta, by omega⟩
    exact (sectorEig_lower_many I _ B hB μ k h2).trans hone2.le
  have heq : Module.finrank ℝ (sectorEig I (fun s : Fin c.nsites => gridPos (nbh * nb) s) B c.nholes c.nbeta μ) = 1 := by
    refine le_antisymm hle ?_
    rw [Nat.one_le_iff_ne_zero]
    intro h
    rw [Submodule.finrank_eq_zero] at h
    have := s1.1 hev
    rw [h, Submodule.mem_bot] at this
    exact hx (s2.1 this)
  obtain ⟨q, hq⟩ := definite_spin I _ B hB heq (s1.1 hev) (fun h => hx (s2.1 h))
  obtain ⟨z, z1, z2, _, P, p1, p2⟩ := C145_multiplet E c nbh nbv nb hc hf b' h1 h2 I B hB r r' vb vb' dets dets' hb hb' H H' hH hH' μ q x hx hev hq
  refine ⟨P, p1, ?_⟩
  -- y is a multiple of z
  have hz : z ∈ Module.End.eigenspace (Matrix.toLin' H'.toMatrix) μ := by
    rw [Module.End.mem_eigenspace_iff, Matrix.toLin'_apply, z2]
  have hyM : y ∈ Module.End.eigenspace (Matrix.toLin' H'.toMatrix) μ := by
    rw [Module.End.mem_eigenspace_iff, Matrix.toLin'_apply, hev']
  obtain ⟨a, ha⟩ := (finrank_eq_one_iff_of_nonzero' ⟨z, hz⟩ (fun h => z1 (congrArg Subtype.val h))).1 hone ⟨y, hyM⟩
  have hya : y = a • z := (congrArg Subtype.val ha).symm
  have ha0 : a ≠ 0 := by
    rintro rfl
    exact hy (hya.trans (zero_smul _ _))
  obtain ⟨G', g1', hd', _, _⟩ := buildHamiltonian_spec I (hc'.tj E) hf hn' hb' B r' vb'
  obtain rfl := Except.ok.inj (hH'.symm.trans g1')
  obtain ⟨Q, q1, q2, q3⟩ := probabilitySpin_spec hb' hn' (List.ofFn y) (by rw [List.length_ofFn, hd']) .hole
  obtain ⟨R, r1, r2, r3⟩ := probabilitySpin_spec hb' hn' (List.ofFn z) (by rw [List.length_ofFn, hd']) .hole
  obtain rfl := Except.ok.inj (p2.symm.trans r1)
  have : Q = P := by
    apply List.ext_getElem (q2.trans r2.symm)
    intro i hi hi'
    have e := q3 ⟨i, q2 ▸ hi⟩
    have e' := r3 ⟨i, r2 ▸ hi'⟩
    rw [List.getD_eq_getElem _ _ hi] at e
    rw [List.getD_eq_getElem _ _ hi'] at e'
    rw [e, e']
    have hst : state { c with nbeta := b' } dets' y = a • state { c with nbeta := b' } dets' z := by
      rw [hya]
      exact (stateMap (K := ℝ) hb' hn' hd').map_smul a z
    show born (state { c with nbeta := b' } dets' y) _ _ = born (state { c with nbeta := b' } dets' z) _ _
    rw [hst]
    exact born_multiple ha0 _ _ _
  rw [← this]
  exact q1

/-- One hole and three electrons in a square, all terms: what is reported for a polarised state (its total spin is 15/4) is reported for a
state with one down spin too. -/
example : ∃ (dets dets' : List (List Nat)) (H H' : SpMat ℝ), constructBasis (rectConf 2 2 1 1 0) = .ok dets ∧
    constructBasis (rectConf 2 2 1 1 1) = .ok dets' ∧
    buildHamiltonian exEnv (rectConf 2 2 1 1 0) ⟨1, 2, 3, 5, 7, 11, 13, 17, 19, 23⟩ dets ⟨true, true, true, true, true, true⟩ [] false = .ok H ∧
    buildHamiltonian exEnv (rectConf 2 2 1 1 1) ⟨1, 2, 3, 5, 7, 11, 13, 17, 19, 23⟩ dets' ⟨true, true, true, true, true, true⟩ [] false = .ok H' ∧
    H.dim = 4 ∧ H'.dim = 12 ∧ ∀ (μ : ℝ) (x : Fin H.dim → ℝ), x ≠ 0 → H.toMatrix *ᵥ x = μ • x →
      ∃ y : Fin H'.dim → ℝ, y ≠ 0 ∧ H'.toMatrix *ᵥ y = μ • y ∧ ∃ P, probabilitySpin (rectConf 2 2 1 1 0) dets (List.ofFn x) 0 = .ok P ∧
        probabilitySpin (rectConf 2 2 1 1 1) dets' (List.ofFn y) 0 = .ok P := by
  have hc : RectConf (rectConf 2 2 1 1 0) 2 2 1 := rectConf_ok _ _ _ _ _ (by decide) (by decide) (by decide)
  have hf : Config.Full (rectConf 2 2 1 1 0) := by unfold Config.Full; decide
  obtain ⟨d, H, a1, a2, _, a3, _⟩ := C30_no_failure exEnv _ 2 2 1 hc hf (by decide) (⟨1, 2, 3, 5, 7, 11, 13, 17, 19, 23⟩ : Interactions ℝ)
    ⟨true, true, true, true, true, true⟩ [] false
  obtain ⟨d', H', b1, b2, _, b3, _⟩ := C30_no_failure exEnv _ 2 2 1 (hc.with_nbeta 1) hf (by decide)
    (⟨1, 2, 3, 5, 7, 11, 13, 17, 19, 23⟩ : Interactions ℝ) ⟨true, true, true, true, true, true⟩ [] false
  refine ⟨d, d', H, H', a1, b1, a2, b2, ?_, ?_, fun μ x hx hev => ?_⟩
  · have : (H.dim : Int) = 4 := a3.trans (by decide)
    omega
  · have : (H'.dim : Int) = 12 := b3.trans (by decide)
    omega
  · obtain ⟨y, y1, y2, _, y3⟩ := C145_multiplet exEnv _ 2 2 1 hc hf 1 (by decide) (by decide) _ _ rfl _ _ _ _ d d' a1 b1 H H' a2 b2 μ _ x hx hev
      (fun σ => spin2_polarised (state_sector a1 (by decide) x) σ)
    exact ⟨y, y1, y2, y3⟩

/-- C145. With ferromagnetic couplings the hole densities reported for the lowest state are the same in all sectors with the same number of
holes. -/
theorem C145_ferro (E : Env) (c : Config) (nbh nbv nb : Nat) (hc : RectConf c nbh nbv nb) (hf : c.Full) (b' : Nat) (h1 : c.nbeta ≤ b')
    (h2 : c.nholes + 2 * b' ≤ c.nsites)
    (I : Interactions ℝ) (B : BoolInteractions) (hz : B.bz = true) (hij : B.bij = true) (hJ : I.J < 0 ∧ I.Jhpar < 0 ∧ I.Jhper < 0)
    (hS : B.bSD = true → I.hSDpar = 0 ∧ I.hSDper = 0) (hN : B.btN = true → I.tNNN ≤ 0 ∧ I.tnNNN ≤ 0)
    (ht : c.nholes = 0 ∨ (B.bt = true ∧ I.t ≠ 0))
    (dets dets' : List (List Nat)) (hb : constructBasis c = .ok dets) (hb' : constructBasis { c with nbeta := b' } = .ok dets')
    (H H' : SpMat ℝ) (hH : buildHamiltonian E c I dets B = .ok H) (hH' : buildHamiltonian E { c with nbeta := b' } I dets' B = .ok H')
    (e e' : ℝ) (he : IsLeast {μ | Module.End.HasEigenvalue (Matrix.toLin' H.toMatrix) μ} e)
    (he' : IsLeast {μ | Module.End.HasEigenvalue (Matrix.toLin' H'.toMatrix) μ} e')
    (x : Fin H.dim → ℝ) (hx : x ≠ 0) (hev : H.toMatrix *ᵥ x = e • x) (y : Fin H'.dim → ℝ) (hy : y ≠ 0) (hev' : H'.toMatrix *ᵥ y = e' • y) :
    e = e' ∧ ∃ P, probabilitySpin c dets (List.ofFn x) 0 = .ok P ∧ probabilitySpin { c with nbeta := b' } dets' (List.ofFn y) 0 = .ok P := by
  have hn : c.nholes + c.nbeta ≤ c.nsites := by omega
  have hn' : ({ c with nbeta := b' } : Config).nholes + ({ c with nbeta := b' } : Config).nbeta ≤ ({ c with nbeta := b' } : Config).nsites :=
    show c.nholes + b' ≤ c.nsites by omega
  have hn0 : c.nholes + 0 ≤ c.nsites := by omega
  have hc' := hc.with_nbeta b'
  obtain ⟨d, G, a1, a2, _⟩ := C30_no_failure E { c with nbeta := 0 } nbh nbv nb (hc.with_nbeta 0) hf hn0 I B [] false
  have hJ' : B.bz = true → I.J ≤ 0 ∧ I.Jhpar ≤ 0 ∧ I.Jhper ≤ 0 := fun _ => ⟨hJ.1.le, hJ.2.1.le, hJ.2.2.le⟩
  have p1 := (lowest_polarised hc hf hn (hz.trans hij.symm) hJ' hS hN hb a1 hH a2 e).1 he
  have p2 := (lowest_polarised (c := { c with nbeta := b' }) hc' hf hn' (hz.trans hij.symm) hJ' hS hN hb' a1 hH' a2 e').1 he'
  obtain rfl := p1.unique p2
  obtain ⟨e'', u1, u2⟩ := C111_unique E { c with nbeta := b' } nbh nbv nb hc' hf hn' I B hij hJ hS hN ht [] false dets' hb' H' hH'
  obtain rfl := he'.unique u1
  exact ⟨rfl, C145_pictures E c nbh nbv nb hc hf b' h1 h2 I B (hz.trans hij.symm) [] [] false false dets dets' hb hb' H H' hH hH' e u2 x hx hev
    y hy hev'⟩

/-- One hole in a square with ferromagnetic couplings: the lowest states of the sectors with no and with one down spin. -/
example (dets dets' : List (List Nat)) (hb : constructBasis (rectConf 2 2 1 1 0) = .ok dets)
    (hb' : constructBasis (rectConf 2 2 1 1 1) = .ok dets') (H H' : SpMat ℝ)
    (hH : buildHamiltonian exEnv (rectConf 2 2 1 1 0) ferroI dets ⟨true, true, true, true, true, true⟩ = .ok H)
    (hH' : buildHamiltonian exEnv (rectConf 2 2 1 1 1) ferroI dets' ⟨true, true, true, true, true, true⟩ = .ok H') :
    ∃ (e : ℝ) (x : Fin H.dim → ℝ) (y : Fin H'.dim → ℝ), x ≠ 0 ∧ y ≠ 0 ∧ H.toMatrix *ᵥ x = e • x ∧ H'.toMatrix *ᵥ y = e • y ∧
      Module.finrank ℝ (Module.End.eigenspace (Matrix.toLin' H'.toMatrix) e) = 1 ∧
      ∃ P, probabilitySpin (rectConf 2 2 1 1 0) dets (List.ofFn x) 0 = .ok P ∧
        probabilitySpin (rectConf 2 2 1 1 1) dets' (List.ofFn y) 0 = .ok P := by
  have hc : RectConf (rectConf 2 2 1 1 0) 2 2 1 := rectConf_ok _ _ _ _ _ (by decide) (by decide) (by decide)
  have hf : Config.Full (rectConf 2 2 1 1 0) := by unfold Config.Full; decide
  have hJ : ferroI.J < 0 ∧ ferroI.Jhpar < 0 ∧ ferroI.Jhper < 0 := show (-1 : ℝ) < 0 ∧ (-1 : ℝ) < 0 ∧ (-2 : ℝ) < 0 by norm_num
  have hS : ferroI.hSDpar = 0 ∧ ferroI.hSDper = 0 := ⟨rfl, rfl⟩
  have hN : ferroI.tNNN ≤ 0 ∧ ferroI.tnNNN ≤ 0 := show (-1 : ℝ) ≤ 0 ∧ (-3 : ℝ) ≤ 0 by norm_num
  have ht : ferroI.t ≠ 0 := show (1 : ℝ) ≠ 0 by norm_num
  obtain ⟨e, he, _⟩ := C111_unique exEnv _ 2 2 1 hc hf (by decide) ferroI _ rfl hJ (fun _ => hS) (fun _ => hN) (.inr ⟨rfl, ht⟩) [] false
    dets hb H hH
  obtain ⟨e', he', hone⟩ := C111_unique exEnv _ 2 2 1 (hc.with_nbeta 1) hf (by decide) ferroI _ rfl hJ (fun _ => hS) (fun _ => hN)
    (.inr ⟨rfl, ht⟩) [] false dets' hb' H' hH'
  obtain ⟨x, hx, hne⟩ := he.1.exists_hasEigenvector
  rw [Module.End.mem_eigenspace_iff, Matrix.toLin'_apply] at hx
  obtain ⟨y, hy, hne'⟩ := he'.1.exists_hasEigenvector
  rw [Module.End.mem_eigenspace_iff, Matrix.toLin'_apply] at hy
  obtain ⟨h1, h2⟩ := C145_ferro exEnv _ 2 2 1 hc hf 1 (by decide) (by decide) ferroI _ rfl rfl hJ (fun _ => hS) (fun _ => hN) (.inr ⟨rfl, ht⟩)
    dets dets' hb hb' H H' hH hH' e e' he he' x hne hx y hne' hy
  subst h1
  exact ⟨e, x, y, hne, hne', hx, hy, hone, h2⟩

end TJ
