/-
Property C105: without antiferromagnetic couplings all spin sectors share the lowest energy.
-/
import Verif.Props.HoppingSign
import Verif.Lemmas.Davidson
import Verif.Lemmas.ExactLib
import Mathlib.Analysis.Real.Sqrt

namespace TJ

open Finset Matrix

section
variable {n : Nat}

/-- An exchange kernel without positive weights, except those that move nothing. -/
def NegKernel (M : Conf n → Conf n → ℝ) : Prop :=
  ∃ (X : Type) (_ : Fintype X) (k : X → Conf n → ℝ) (π : X → Fin n ≃ Fin n),
    (∀ x σ τ, SameHoles σ τ → k x σ = k x τ) ∧ (∀ x σ, k x σ ≤ 0 ∨ π x = Equiv.refl _) ∧
    ∀ (φ : Conf n → ℝ) σ, (∑ τ, M σ τ * φ τ) = ∑ x, k x σ * φ (fun s => σ (π x s))

theorem NegKernel.add {M N : Conf n → Conf n → ℝ} (h : NegKernel M) (h' : NegKernel N) : NegKernel (fun σ τ => M σ τ + N σ τ) := by
  obtain ⟨X, _, k, π, h1, h3, h2⟩ := h
  obtain ⟨Y, _, l, ρ, g1, g3, g2⟩ := h'
  refine ⟨X ⊕ Y, inferInstance, Sum.elim k l, Sum.elim π ρ, ?_, ?_, ?_⟩
  · rintro (x | y) σ τ h
    · exact h1 x σ τ h
    · exact g1 y σ τ h
  · rintro (x | y) σ
    · exact h3 x σ
    · exact g3 y σ
  · intro φ σ
    simp only [add_mul, sum_add_distrib, Fintype.sum_sum_type, Sum.elim_inl, Sum.elim_inr, h2, g2]

theorem NegKernel.zero : NegKernel (fun _ _ : Conf n => (0 : ℝ)) :=
  ⟨Empty, inferInstance, fun x => x.elim, fun x => x.elim, fun x => x.elim, fun x => x.elim, fun φ σ => by simp⟩

theorem NegKernel.of_eq {M N : Conf n → Conf n → ℝ} (h : NegKernel M) (e : ∀ σ τ, N σ τ = M σ τ) : NegKernel N := by
  have : N = M := by funext σ τ; exact e σ τ
  rw [this]; exact h

theorem NegKernel.ite {M : Conf n → Conf n → ℝ} (b : Bool) (h : b = true → NegKernel M) :
    NegKernel (fun σ τ => if b then M σ τ else 0) := by
  cases b
  · simpa using NegKernel.zero
  · simpa using h rfl

theorem NegKernel.pairs {M : Conf n → Conf n → ℝ} (k : Fin n → Fin n → Conf n → ℝ) (π : Fin n → Fin n → Fin n ≃ Fin n)
    (hk : ∀ a b σ τ, SameHoles σ τ → k a b σ = k a b τ) (h0 : ∀ a b σ, k a b σ ≤ 0)
    (h : ∀ (φ : Conf n → ℝ) σ, (∑ τ, M σ τ * φ τ) = ∑ a, ∑ b, k a b σ * φ (fun s => σ (π a b s))) : NegKernel M := by
  refine ⟨Fin n × Fin n, inferInstance, fun x => k x.1 x.2, fun x => π x.1 x.2, fun x => hk x.1 x.2, fun x σ => .inl (h0 x.1 x.2 σ), ?_⟩
  intro φ σ
  rw [h, Fintype.sum_prod_type]

/-- The Hamiltonian without antiferromagnetic couplings, without singlet displacement and with hopping integrals that are not positive. -/
theorem ham_negKernel (I : Interactions ℝ) (pos : Fin n → Pt) (B : BoolInteractions) (hB : B.bz = B.bij)
    (hJ : B.bz = true → I.J ≤ 0 ∧ I.Jhpar ≤ 0 ∧ I.Jhper ≤ 0) (hS : B.bSD = true → I.hSDpar = 0 ∧ I.hSDper = 0)
    (hN : B.btN = true → I.tNNN ≤ 0 ∧ I.tnNNN ≤ 0) (ht : I.t ≤ 0) : NegKernel (hamEl I pos B) := by
  have k1 : NegKernel (hopEl I pos) := by
    refine .pairs (fun a b σ => if σ a = .hole ∧ σ b ≠ .hole ∧ Near (pos a) (pos b) then I.t else 0) (fun a b => Equiv.swap a b) ?_ ?_
      (hop_sum I pos)
    · intro a b σ τ h
      simp only [h a, h b, ne_eq]
    · intro a b σ
      show (if _ then I.t else 0) ≤ 0
      split_ifs
      · exact ht
      · exact le_refl _
  have k2 : B.btN = true → NegKernel (nextEl I pos) := by
    intro hb
    refine .pairs (fun a b σ => if σ a = .hole ∧ σ b ≠ .hole ∧ (∃ m, Near (pos a) (pos m) ∧ Near (pos m) (pos b)) then
      (if (pos a).1 = (pos b).1 ∨ (pos a).2 = (pos b).2 then I.tnNNN else I.tNNN) else 0) (fun a b => Equiv.swap a b) ?_ ?_ (next_sum I pos)
    · intro a b σ τ h
      simp only [h a, h b, ne_eq]
    · intro a b σ
      show (if _ then (if _ then I.tnNNN else I.tNNN) else 0) ≤ 0
      split_ifs
      · exact (hN hb).2
      · exact (hN hb).1
      · exact le_refl _
  have k3 : NegKernel (repEl I pos) := by
    refine ⟨Unit, inferInstance, fun _ σ => ∑ a, ∑ b, if a < b ∧ σ a = .hole ∧ σ b = .hole
        then (if Near (pos a) (pos b) then I.VNN else 0) + (if Diagonal (pos a) (pos b) then I.VNNNper else 0) else 0,
        fun _ => Equiv.refl _, ?_, fun _ _ => .inr rfl, ?_⟩
    · intro _ σ τ h
      simp only [h _]
    · intro φ σ
      unfold repEl
      simp
  have k4 : B.bz = true → NegKernel (fun σ τ => staticEl I pos σ τ + flipEl I pos σ τ) := by
    intro hb
    refine ⟨(Fin n × Fin n) ⊕ (Fin n × Fin n), inferInstance,
      Sum.elim (fun x σ => if x.1 < x.2 ∧ Near (pos x.1) (pos x.2) ∧ σ x.1 ≠ .hole ∧ σ x.2 ≠ .hole then Jeff I pos σ x.1 x.2 / 2 else 0)
        (fun x σ => if x.1 < x.2 ∧ Near (pos x.1) (pos x.2) ∧ σ x.1 ≠ .hole ∧ σ x.2 ≠ .hole then - (Jeff I pos σ x.1 x.2 / 2) else 0),
      Sum.elim (fun x => Equiv.swap x.1 x.2) (fun _ => Equiv.refl _), ?_, ?_, ?_⟩
    · rintro (x | x) σ τ h <;>
      simp only [Sum.elim_inl, Sum.elim_inr, h x.1, h x.2, ne_eq, Jeff_congr I pos h x.1 x.2]
    · rintro (x | x) σ
      · left
        have hj : Jeff I pos σ x.1 x.2 ≤ 0 := by
          unfold Jeff
          split_ifs
          · exact (hJ hb).2.1
          · exact (hJ hb).2.2
          · exact (hJ hb).1
        show (if _ then Jeff I pos σ x.1 x.2 / 2 else 0) ≤ 0
        split_ifs
        · exact div_nonpos_of_nonpos_of_nonneg hj zero_le_two
        · exact le_refl _
      · right; rfl
    · intro φ σ
      rw [static_flip_sum two_ne_zero, Fintype.sum_sum_type, Fintype.sum_prod_type, Fintype.sum_prod_type]
      rfl
  have k5 : B.bSD = true → NegKernel (sdEl I pos) := by
    intro hb
    refine NegKernel.zero.of_eq ?_
    intro σ τ
    unfold sdEl
    rw [(hS hb).1, (hS hb).2]
    simp
  refine ((((k1 |> fun k => NegKernel.ite B.bt (fun _ => k)).add (NegKernel.ite B.bz k4)).add (NegKernel.ite B.bSD k5)).add
    (NegKernel.ite B.btN k2)).add (NegKernel.ite B.bV (fun _ => k3)) |>.of_eq ?_
  intro σ τ
  unfold hamEl
  rw [← hB]
  cases B.bz <;> simp; ring

/-! ### The polarised state -/

/-- All spins up, the holes at the same sites. -/
def upOf (σ : Conf n) : Conf n := fun s => if σ s = .hole then .hole else .up

theorem upOf_same (σ : Conf n) : SameHoles (upOf σ) σ := by
  intro s
  unfold upOf
  split_ifs with h
  · simp [h]
  · simp [h]

theorem upOf_comp (σ : Conf n) (e : Fin n ≃ Fin n) : upOf (fun s => σ (e s)) = fun s => upOf σ (e s) := rfl

theorem upOf_count (σ : Conf n) : (upOf σ).count .hole = σ.count .hole ∧ (upOf σ).count .down = 0 := by
  constructor
  · unfold Conf.count
    congr 1
    ext s
    simp only [mem_filter, mem_univ, true_and]
    exact upOf_same σ s
  · unfold Conf.count
    rw [card_eq_zero, filter_eq_empty_iff]
    intro s _
    unfold upOf
    split_ifs <;> simp

/-- The polarised state with the same distribution of the holes. -/
noncomputable def polarise (ψ : Conf n → ℝ) (ρ : Conf n) : ℝ := Real.sqrt (∑ σ with upOf σ = ρ, ψ σ ^ 2)

theorem polarise_sq (ψ : Conf n → ℝ) (ρ : Conf n) : polarise ψ ρ * polarise ψ ρ = ∑ σ with upOf σ = ρ, ψ σ ^ 2 :=
  Real.mul_self_sqrt (sum_nonneg fun _ _ => sq_nonneg _)

theorem polarise_norm (ψ : Conf n → ℝ) : (∑ ρ, polarise ψ ρ * polarise ψ ρ) = ∑ σ, ψ σ * ψ σ := by
  rw [sum_congr rfl fun ρ _ => polarise_sq ψ ρ, sum_fiberwise]
  exact sum_congr rfl fun σ _ => sq (ψ σ)

theorem polarise_sector {ψ : Conf n → ℝ} {h b : Nat} (hψ : InSector h b ψ) : InSector h 0 (polarise ψ) := by
  intro ρ hρ
  have : (∑ σ with upOf σ = ρ, ψ σ ^ 2) ≠ 0 := by
    intro h0
    apply hρ
    unfold polarise
    rw [h0, Real.sqrt_zero]
  obtain ⟨σ, hσ, h1⟩ := exists_ne_zero_of_sum_ne_zero this
  obtain rfl := (mem_filter.1 hσ).2
  have h2 := hψ σ (fun e => h1 (by rw [e]; ring))
  exact ⟨(upOf_count σ).1.trans h2.1, (upOf_count σ).2⟩

theorem polarise_comp (ψ : Conf n → ℝ) (e : Fin n ≃ Fin n) (ρ : Conf n) :
    polarise ψ (fun s => ρ (e s)) = Real.sqrt (∑ σ with upOf σ = ρ, ψ (fun s => σ (e s)) ^ 2) := by
  unfold polarise
  congr 1
  symm
  refine sum_bij' (fun σ _ => fun s => σ (e s)) (fun τ _ => fun s => τ (e.symm s)) ?_ ?_ ?_ ?_ ?_
  · intro σ hσ
    rw [mem_filter] at hσ ⊢
    refine ⟨mem_univ _, ?_⟩
    rw [upOf_comp, hσ.2]
  · intro τ hτ
    rw [mem_filter] at hτ ⊢
    refine ⟨mem_univ _, ?_⟩
    rw [upOf_comp, hτ.2]
    funext s
    simp
  · intro σ _; funext s; simp
  · intro τ _; funext s; simp
  · intro σ _; rfl

/-- The energy does not increase. -/
theorem polarise_energy {M : Conf n → Conf n → ℝ} (hM : NegKernel M) (ψ : Conf n → ℝ) :
    (∑ ρ, polarise ψ ρ * ∑ τ, M ρ τ * polarise ψ τ) ≤ ∑ σ, ψ σ * ∑ τ, M σ τ * ψ τ := by
  obtain ⟨X, _, k, π, h1, h2, h3⟩ := hM
  rw [← sum_fiberwise univ upOf (fun σ => ψ σ * ∑ τ, M σ τ * ψ τ)]
  refine sum_le_sum fun ρ _ => ?_
  rw [h3, mul_sum]
  have e : (∑ σ with upOf σ = ρ, ψ σ * ∑ τ, M σ τ * ψ τ) = ∑ x, k x ρ * ∑ σ with upOf σ = ρ, ψ σ * ψ (fun s => σ (π x s)) := by
    have : ∀ σ ∈ univ.filter (fun σ : Conf n => upOf σ = ρ), (ψ σ * ∑ τ, M σ τ * ψ τ) =
        ∑ x, k x ρ * (ψ σ * ψ (fun s => σ (π x s))) := by
      intro σ hσ
      rw [h3, mul_sum]
      refine sum_congr rfl fun x _ => ?_
      rw [← (mem_filter.1 hσ).2, h1 x _ _ (upOf_same σ)]
      ring
    rw [sum_congr rfl this, sum_comm]
    exact sum_congr rfl fun x _ => (mul_sum _ _ _).symm
  rw [e]
  refine sum_le_sum fun x _ => ?_
  rcases h2 x ρ with hk | hk
  · have cs := Real.sum_mul_le_sqrt_mul_sqrt (univ.filter (fun σ : Conf n => upOf σ = ρ)) ψ (fun σ => ψ (fun s => σ (π x s)))
    rw [← polarise_comp ψ (π x) ρ] at cs
    have cs : _ ≤ polarise ψ ρ * polarise ψ (fun s => ρ (π x s)) := cs
    nlinarith [mul_le_mul_of_nonpos_left cs hk]
  · rw [hk]
    have := polarise_sq ψ ρ
    have e2 : (∑ σ with upOf σ = ρ, ψ σ * ψ (fun s => σ (Equiv.refl _ s))) = ∑ σ with upOf σ = ρ, ψ σ ^ 2 :=
      sum_congr rfl fun σ _ => (sq (ψ σ)).symm
    rw [e2, ← this]
    refine le_of_eq ?_
    show polarise ψ ρ * (k x ρ * polarise ψ ρ) = _
    ring

end

/-! ### C105 -/

section
variable {E : Env} {c : Config} {nbh nbv nb : Nat} {I : Interactions ℝ} {B : BoolInteractions}

/-- Below every energy of a sector there is one of the polarised sector. -/
theorem polarised_below (hc : RectConf c nbh nbv nb) (hf : c.Full) (hn : c.nholes + c.nbeta ≤ c.nsites)
    (hM : NegKernel (hamEl I (fun s : Fin c.nsites => gridPos (nbh * nb) s) B))
    {dets dets' : List (List Nat)} (hb : constructBasis c = .ok dets) (hb' : constructBasis { c with nbeta := 0 } = .ok dets')
    {H H' : SpMat ℝ} (hH : buildHamiltonian E c I dets B = .ok H) (hH' : buildHamiltonian E { c with nbeta := 0 } I dets' B = .ok H')
    {μ : ℝ} (hμ : Module.End.HasEigenvalue (Matrix.toLin' H.toMatrix) μ) :
    ∃ ν ≤ μ, Module.End.HasEigenvalue (Matrix.toLin' H'.toMatrix) ν := by
  have hc' := hc.with_nbeta 0
  have hn' : c.nholes + 0 ≤ c.nsites := by omega
  -- the eigenvector as a function of the occupations
  have h1 : 1 ≤ Module.finrank ℝ (sectorEig I (fun s : Fin c.nsites => gridPos (nbh * nb) s) B c.nholes c.nbeta μ) := by
    rw [← eigenspace_map hc hf hn hb hH μ, Submodule.one_le_finrank_iff]
    exact hμ
  obtain ⟨⟨ψ, hs, he⟩, hne⟩ := (Submodule.ne_bot_iff _).1 (Submodule.one_le_finrank_iff.1 h1) |> fun ⟨x, hx, h0⟩ =>
    (⟨⟨x, hx⟩, h0⟩ : ∃ x : sectorEig I (fun s : Fin c.nsites => gridPos (nbh * nb) s) B c.nholes c.nbeta μ, (x : Conf c.nsites → ℝ) ≠ 0)
  have hne : ψ ≠ 0 := hne
  have hpos : 0 < ∑ σ, ψ σ * ψ σ := by
    obtain ⟨σ, hσ⟩ := Function.ne_iff.1 hne
    exact sum_pos' (fun _ _ => mul_self_nonneg _) ⟨σ, mem_univ _, mul_self_pos.2 hσ⟩
  -- the vector of the polarised state
  obtain ⟨H'', g1, hd, _, _⟩ := buildHamiltonian_spec I (hc'.tj E) hf hn' hb' B [] false
  obtain rfl := Except.ok.inj (hH'.symm.trans g1)
  have hel := C31_matrix_elements E _ nbh nbv nb hc' hf hn' I B [] false dets' hb' H' hH'
  let x : Fin H'.dim → ℝ := fun i => polarise ψ (conf { c with nbeta := 0 } (dets'[i.1]'(hd ▸ i.2)))
  have hx : state { c with nbeta := 0 } dets' x = polarise ψ := by
    refine amp_ext hb' hn' ?_ ?_
    · intro k hk
      rw [getD_ofFn x (hd ▸ hk)]
    · intro σ hσ
      by_contra h0
      exact hσ (polarise_sector hs σ h0)
  have d1 : x ⬝ᵥ x = ∑ σ, ψ σ * ψ σ := by
    rw [state_dot hb' hn' hd, hx]
    exact polarise_norm ψ
  have d2 : x ⬝ᵥ (H'.toMatrix *ᵥ x) ≤ μ * (x ⬝ᵥ x) := by
    rw [state_dot hb' hn' hd, state_mulVec hb' hn' hd hel, hx, d1, mul_sum]
    refine (polarise_energy hM ψ).trans (le_of_eq ?_)
    refine sum_congr rfl fun σ _ => ?_
    have := he σ
    unfold tjOp at this
    rw [this]; ring
  -- the lowest eigenvalue
  have hsym : H'.toMatrix.IsSymm := by
    ext i j
    exact C32_symmetric E _ nbh nbv nb hc' hf hn' I B [] false dets' hb' H' hH' j i
  obtain ⟨e, e1, e2⟩ := exists_eigh H'.dim H'.toMatrix
  have e1 := e1 hsym
  have hdim : Nonempty (Fin H'.dim) := by
    by_contra h0
    rw [not_nonempty_iff] at h0
    have : x ⬝ᵥ x = 0 := by simp [dotProduct]
    rw [← d1, this] at hpos
    exact lt_irrefl _ hpos
  obtain ⟨k, _, hk⟩ := exists_min_image univ e.1 univ_nonempty
  have hlow := lowest_le_quotient hsym e1 e2 (e.1 k) (fun j => hk j (mem_univ _)) x
  refine ⟨e.1 k, ?_, ?_⟩
  · rw [← d1] at hpos
    exact le_of_mul_le_mul_right (hlow.trans d2) hpos
  · refine Module.End.hasEigenvalue_of_hasEigenvector (x := e.2 k) ⟨?_, ?_⟩
    · rw [Module.End.mem_eigenspace_iff, Matrix.toLin'_apply]
      exact e1 k
    · intro h0
      have := e2 k k
      rw [h0, if_pos rfl, zero_dotProduct] at this
      exact zero_ne_one this

theorem hasEigenvalue_iff {d : Nat} {M : Matrix (Fin d) (Fin d) ℝ} {μ : ℝ} : Module.End.HasEigenvalue (Matrix.toLin' M) μ ↔
    1 ≤ Module.finrank ℝ (Module.End.eigenspace (Matrix.toLin' M) μ) := Submodule.one_le_finrank_iff.symm

/-- The energies of the polarised sector occur in every sector. -/
theorem polarised_occurs (hc : RectConf c nbh nbv nb) (hf : c.Full) (hn : c.nholes + c.nbeta ≤ c.nsites) (hB : B.bz = B.bij)
    {dets dets' : List (List Nat)} (hb : constructBasis c = .ok dets) (hb' : constructBasis { c with nbeta := 0 } = .ok dets')
    {H H' : SpMat ℝ} (hH : buildHamiltonian E c I dets B = .ok H) (hH' : buildHamiltonian E { c with nbeta := 0 } I dets' B = .ok H')
    {μ : ℝ} (hμ : Module.End.HasEigenvalue (Matrix.toLin' H'.toMatrix) μ) : Module.End.HasEigenvalue (Matrix.toLin' H.toMatrix) μ := by
  rw [hasEigenvalue_iff] at hμ ⊢
  rw [eigenspace_map (hc.with_nbeta 0) hf (show c.nholes + 0 ≤ c.nsites by omega) hb' hH'] at hμ
  rw [eigenspace_map hc hf hn hb hH]
  by_cases h : c.nholes + 2 * c.nbeta ≤ c.nsites
  · have := sectorEig_lower_many I (fun s : Fin c.nsites => gridPos (nbh * nb) s) B hB (h := c.nholes) (b := 0) μ c.nbeta (by omega)
    rw [Nat.zero_add] at this
    exact hμ.trans this
  · have h1 := sectorEig_lower_many I (fun s : Fin c.nsites => gridPos (nbh * nb) s) B hB (h := c.nholes) (b := 0) μ
      (c.nsites - c.nholes - c.nbeta) (by omega)
    rw [Nat.zero_add] at h1
    exact hμ.trans (h1.trans (sectorEig_rev_le _ _ _ (by omega) μ))

/-- The lowest energy of a sector is that of the polarised sector. -/
theorem lowest_polarised (hc : RectConf c nbh nbv nb) (hf : c.Full) (hn : c.nholes + c.nbeta ≤ c.nsites) (hB : B.bz = B.bij)
    (hJ : B.bz = true → I.J ≤ 0 ∧ I.Jhpar ≤ 0 ∧ I.Jhper ≤ 0) (hS : B.bSD = true → I.hSDpar = 0 ∧ I.hSDper = 0)
    (hN : B.btN = true → I.tNNN ≤ 0 ∧ I.tnNNN ≤ 0)
    {dets dets' : List (List Nat)} (hb : constructBasis c = .ok dets) (hb' : constructBasis { c with nbeta := 0 } = .ok dets')
    {H H' : SpMat ℝ} (hH : buildHamiltonian E c I dets B = .ok H) (hH' : buildHamiltonian E { c with nbeta := 0 } I dets' B = .ok H')
    (e : ℝ) : IsLeast {μ | Module.End.HasEigenvalue (Matrix.toLin' H.toMatrix) μ} e ↔
      IsLeast {μ | Module.End.HasEigenvalue (Matrix.toLin' H'.toMatrix) μ} e := by
  have below : ∀ μ, Module.End.HasEigenvalue (Matrix.toLin' H.toMatrix) μ →
      ∃ ν ≤ μ, Module.End.HasEigenvalue (Matrix.toLin' H'.toMatrix) ν := by
    intro μ hμ
    by_cases ht : I.t ≤ 0
    · exact polarised_below hc hf hn (ham_negKernel I _ B hB hJ hS hN ht) hb hb' hH hH' hμ
    · obtain ⟨d, G, a1, a2, _⟩ := C30_no_failure E c nbh nbv nb hc hf hn (oppositeT I) B [] false
      obtain ⟨d', G', b1, b2, _⟩ := C30_no_failure E { c with nbeta := 0 } nbh nbv nb (hc.with_nbeta 0) hf
        (show c.nholes + 0 ≤ c.nsites by omega) (oppositeT I) B [] false
      obtain rfl := Except.ok.inj (hb.symm.trans a1)
      obtain rfl := Except.ok.inj (hb'.symm.trans b1)
      have ht' : (oppositeT I).t ≤ 0 := by
        show - I.t ≤ 0
        linarith
      have hμ' : Module.End.HasEigenvalue (Matrix.toLin' G.toMatrix) μ := by
        rw [hasEigenvalue_iff] at hμ ⊢
        rwa [← C104_sign_of_t E c nbh nbv nb hc hf hn I B [] false dets hb H G hH a2 μ]
      obtain ⟨ν, h1, h2⟩ := polarised_below hc hf hn (ham_negKernel (oppositeT I) _ B hB hJ hS hN ht') hb hb' a2 b2 hμ'
      refine ⟨ν, h1, ?_⟩
      rw [hasEigenvalue_iff] at h2 ⊢
      rwa [C104_sign_of_t E { c with nbeta := 0 } nbh nbv nb (hc.with_nbeta 0) hf
        (show c.nholes + 0 ≤ c.nsites by omega) I B [] false dets' hb' H' G' hH' b2 ν]
  have above : ∀ μ, Module.End.HasEigenvalue (Matrix.toLin' H'.toMatrix) μ → Module.End.HasEigenvalue (Matrix.toLin' H.toMatrix) μ :=
    fun μ hμ => polarised_occurs hc hf hn hB hb hb' hH hH' hμ
  constructor
  · rintro ⟨h1, h2⟩
    obtain ⟨ν, h3, h4⟩ := below e h1
    have : ν = e := le_antisymm h3 (h2 (above ν h4))
    exact ⟨this ▸ h4, fun μ hμ => h2 (above μ hμ)⟩
  · rintro ⟨h1, h2⟩
    refine ⟨above e h1, fun μ hμ => ?_⟩
    obtain ⟨ν, h3, h4⟩ := below μ hμ
    exact (h2 h4).trans h3

end

/-- C105. With spin couplings that are not antiferromagnetic, without singlet displacement and with next-nearest-neighbour hopping
integrals that are not positive, all spin sectors with the same number of holes have the same lowest energy, for both signs of `t`
and for every repulsion. -/
theorem C105_same_lowest_energy (E : Env) (c : Config) (nbh nbv nb : Nat) (hc : RectConf c nbh nbv nb) (hf : c.Full)
    (hn : c.nholes + c.nbeta ≤ c.nsites) (b' : Nat) (hn' : c.nholes + b' ≤ c.nsites) (I : Interactions ℝ) (B : BoolInteractions)
    (hB : B.bz = B.bij) (hJ : B.bz = true → I.J ≤ 0 ∧ I.Jhpar ≤ 0 ∧ I.Jhper ≤ 0) (hS : B.bSD = true → I.hSDpar = 0 ∧ I.hSDper = 0)
    (hN : B.btN = true → I.tNNN ≤ 0 ∧ I.tnNNN ≤ 0)
    (dets dets' : List (List Nat)) (hb : constructBasis c = .ok dets) (hb' : constructBasis { c with nbeta := b' } = .ok dets')
    (H H' : SpMat ℝ) (hH : buildHamiltonian E c I dets B = .ok H) (hH' : buildHamiltonian E { c with nbeta := b' } I dets' B = .ok H')
    (e : ℝ) : IsLeast {μ | Module.End.HasEigenvalue (Matrix.toLin' H.toMatrix) μ} e ↔
      IsLeast {μ | Module.End.HasEigenvalue (Matrix.toLin' H'.toMatrix) μ} e := by
  obtain ⟨d, G, a1, a2, _⟩ := C30_no_failure E { c with nbeta := 0 } nbh nbv nb (hc.with_nbeta 0) hf
    (show c.nholes + 0 ≤ c.nsites by omega) I B [] false
  rw [lowest_polarised hc hf hn hB hJ hS hN hb a1 hH a2, lowest_polarised (hc.with_nbeta b') hf hn' hB hJ hS hN hb' a1 hH' a2]

/-- Couplings of the example: ferromagnetic, `t` positive. -/
noncomputable def ferroI : Interactions ℝ := ⟨1, -1, -1, -2, 0, 0, -1, -3, 1, 2⟩

/-- 2 x 2 lattice with one hole: the sectors with no and with one down spin. -/
example : ∃ dets dets' H H', constructBasis (rectConf 2 2 1 1 0) = .ok dets ∧ constructBasis (rectConf 2 2 1 1 1) = .ok dets' ∧
    buildHamiltonian exEnv (rectConf 2 2 1 1 0) ferroI dets ⟨true, true, true, true, true, true⟩ = .ok H ∧
    buildHamiltonian exEnv (rectConf 2 2 1 1 1) ferroI dets' ⟨true, true, true, true, true, true⟩ = .ok H' ∧ H.dim = 4 ∧ H'.dim = 12 ∧
    ∀ e : ℝ, IsLeast {μ | Module.End.HasEigenvalue (Matrix.toLin' H.toMatrix) μ} e ↔
      IsLeast {μ | Module.End.HasEigenvalue (Matrix.toLin' H'.toMatrix) μ} e := by
  have hc : RectConf (rectConf 2 2 1 1 0) 2 2 1 := rectConf_ok _ _ _ _ _ (by decide) (by decide) (by decide)
  have hf : Config.Full (rectConf 2 2 1 1 0) := by unfold Config.Full; decide
  obtain ⟨d, H, a1, a2, _, a3, _⟩ := C30_no_failure exEnv _ 2 2 1 hc hf (by decide) ferroI ⟨true, true, true, true, true, true⟩ [] false
  obtain ⟨d', H', b1, b2, _, b3, _⟩ := C30_no_failure exEnv _ 2 2 1 (hc.with_nbeta 1) hf (by decide) ferroI ⟨true, true, true, true, true, true⟩ [] false
  refine ⟨d, d', H, H', a1, b1, a2, b2, ?_, ?_,
    fun e => C105_same_lowest_energy exEnv _ 2 2 1 hc hf (by decide) 1 (by decide) ferroI _ rfl (fun _ => ?_) (fun _ => ⟨rfl, rfl⟩)
      (fun _ => ?_) d d' a1 b1 H H' a2 b2 e⟩
  · have : (H.dim : Int) = 4 := a3.trans (by decide)
    omega
  · have : (H'.dim : Int) = 12 := b3.trans (by decide)
    omega
  · show (-1 : ℝ) ≤ 0 ∧ (-1 : ℝ) ≤ 0 ∧ (-2 : ℝ) ≤ 0
    norm_num
  · show (-1 : ℝ) ≤ 0 ∧ (-3 : ℝ) ≤ 0
    norm_num

end TJ
