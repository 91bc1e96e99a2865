/-
Properties C87 and C88: the spectra of different sectors of the same lattice.
-/
import Verif.Props.Phase
import Verif.Lemmas.Sector
import Mathlib.LinearAlgebra.Eigenspace.Basic
import Mathlib.LinearAlgebra.Matrix.ToLin
import Mathlib.LinearAlgebra.Dimension.Finrank
import Mathlib.LinearAlgebra.FiniteDimensional.Basic
import Mathlib.RingTheory.Noetherian.Basic
import Mathlib.LinearAlgebra.FiniteDimensional.Lemmas

namespace TJ

open Finset Matrix

section
variable {K : Type} [Field K] {n : Nat} (I : Interactions K) (pos : Fin n → Pt) (B : BoolInteractions)

theorem tjOp_add (φ ψ : Conf n → K) (σ : Conf n) : tjOp I pos B (φ + ψ) σ = tjOp I pos B φ σ + tjOp I pos B ψ σ := by
  unfold tjOp
  rw [← sum_add_distrib]
  exact sum_congr rfl fun τ _ => by rw [Pi.add_apply, mul_add]

theorem tjOp_smul (a : K) (φ : Conf n → K) (σ : Conf n) : tjOp I pos B (a • φ) σ = a * tjOp I pos B φ σ := by
  unfold tjOp
  rw [mul_sum]
  exact sum_congr rfl fun τ _ => by rw [Pi.smul_apply, smul_eq_mul]; ring

/-- The states of a sector with energy `μ`. -/
def sectorEig (h b : Nat) (μ : K) : Submodule K (Conf n → K) where
  carrier := {ψ | InSector h b ψ ∧ ∀ σ, tjOp I pos B ψ σ = μ * ψ σ}
  add_mem' := by
    rintro φ ψ ⟨h1, h2⟩ ⟨g1, g2⟩
    refine ⟨?_, fun σ => by rw [tjOp_add, h2, g2, Pi.add_apply]; ring⟩
    intro σ hσ
    by_cases k : φ σ = 0
    · exact g1 σ (fun e => hσ (by rw [Pi.add_apply, k, e, add_zero]))
    · exact h1 σ k
  zero_mem' := ⟨fun σ h => absurd rfl h, fun σ => by simp [tjOp]⟩
  smul_mem' := by
    rintro a φ ⟨h1, h2⟩
    refine ⟨fun σ hσ => h1 σ (fun e => hσ (by rw [Pi.smul_apply, e, smul_zero])), fun σ => ?_⟩
    rw [tjOp_smul, h2, Pi.smul_apply, smul_eq_mul]; ring

end

section
variable {K : Type} [Field K] {c : Config} {dets : List (List Nat)}

/-- The state of a coefficient vector, as a linear map. -/
def stateMap (hb : constructBasis c = .ok dets) (hn : c.nholes + c.nbeta ≤ c.nsites) {d : Nat} (hd : d = dets.length) :
    (Fin d → K) →ₗ[K] (Conf c.nsites → K) where
  toFun x := state c dets x
  map_add' x y := by
    funext σ
    by_cases h : σ.count .hole = c.nholes ∧ σ.count .down = c.nbeta
    · obtain ⟨k, hk, rfl⟩ := exists_conf hb hn h.1 h.2
      rw [Pi.add_apply, state_conf hb _ hd hk, state_conf hb _ hd hk, state_conf hb _ hd hk]
      rfl
    · rw [Pi.add_apply, state, state, state, amp_outside hb hn _ h, amp_outside hb hn _ h, amp_outside hb hn _ h, add_zero]
  map_smul' a x := by
    funext σ
    by_cases h : σ.count .hole = c.nholes ∧ σ.count .down = c.nbeta
    · obtain ⟨k, hk, rfl⟩ := exists_conf hb hn h.1 h.2
      rw [Pi.smul_apply, state_conf hb _ hd hk, state_conf hb _ hd hk]
      rfl
    · rw [Pi.smul_apply, state, state, amp_outside hb hn _ h, amp_outside hb hn _ h, smul_zero]

theorem stateMap_injective (hb : constructBasis c = .ok dets) (hn : c.nholes + c.nbeta ≤ c.nsites) {d : Nat} (hd : d = dets.length) :
    Function.Injective (stateMap (K := K) hb hn hd) := by
  intro x y h
  funext i
  have h1 : state c dets x (conf c (dets[i.1]'(hd ▸ i.2))) = state c dets y (conf c (dets[i.1]'(hd ▸ i.2))) := congrFun h _
  rwa [state_conf hb _ hd, state_conf hb _ hd] at h1

/-- The eigenspaces of the Hamiltonian matrix are those of the operator in the sector. -/
theorem eigenspace_map {E : Env} {nbh nbv nb : Nat} (hc : RectConf c nbh nbv nb) (hf : c.Full)
    (hn : c.nholes + c.nbeta ≤ c.nsites) {I : Interactions K} {B : BoolInteractions} {r : List Nat} {vb : Bool}
    (hb : constructBasis c = .ok dets) {H : SpMat K} (hH : buildHamiltonian E c I dets B r vb = .ok H) (μ : K) :
    Module.finrank K (Module.End.eigenspace (Matrix.toLin' H.toMatrix) μ) =
      Module.finrank K (sectorEig I (fun s : Fin c.nsites => gridPos (nbh * nb) s) B c.nholes c.nbeta μ) := by
  obtain ⟨H', h1, hd, _, _⟩ := buildHamiltonian_spec I (hc.tj E) hf hn hb B r vb
  obtain rfl := Except.ok.inj (hH.symm.trans h1)
  have he := C31_matrix_elements E c nbh nbv nb hc hf hn I B r vb dets hb H hH
  have hinj := stateMap_injective (K := K) hb hn hd
  have hmul := fun x => state_mulVec hb hn hd he x
  have key : Submodule.map (stateMap hb hn hd) (Module.End.eigenspace (Matrix.toLin' H.toMatrix) μ) =
      sectorEig I (fun s : Fin c.nsites => gridPos (nbh * nb) s) B c.nholes c.nbeta μ := by
    ext ψ
    rw [Submodule.mem_map]
    constructor
    · rintro ⟨x, hx, rfl⟩
      rw [Module.End.mem_eigenspace_iff, Matrix.toLin'_apply] at hx
      refine ⟨state_sector hb hn x, fun σ => ?_⟩
      show tjOp I _ B (state c dets x) σ = μ * state c dets x σ
      rw [← hmul, hx]
      exact congrFun ((stateMap (K := K) hb hn hd).map_smul μ x) σ
    · rintro ⟨h1, h2⟩
      have hx : stateMap hb hn hd (fun k => ψ (conf c (dets[k.1]'(hd ▸ k.2)))) = ψ := by
        refine amp_ext hb hn ?_ ?_
        · intro k hk
          rw [getD_ofFn _ (by omega)]
        · intro σ hσ
          by_contra k
          exact hσ (h1 σ k)
      refine ⟨_, ?_, hx⟩
      rw [Module.End.mem_eigenspace_iff, Matrix.toLin'_apply]
      apply hinj
      rw [LinearMap.map_smul, hx]
      show state c dets _ = _
      rw [hmul]
      show tjOp I _ B (stateMap hb hn hd _) = _
      rw [hx]
      funext σ
      rw [h2, Pi.smul_apply, smul_eq_mul]
  rw [(Submodule.equivMapOfInjective _ hinj _).finrank_eq, key]

end

/-! ### C87 -/

section
variable {K : Type} [Field K] {n : Nat} (I : Interactions K) (pos : Fin n → Pt) (B : BoolInteractions)

/-- Exchange of up and down as a bijection. -/
def revEquiv : Conf n ≃ Conf n where
  toFun σ := σ.rev
  invFun σ := σ.rev
  left_inv σ := by funext s; exact Occ.rev_rev _
  right_inv σ := by funext s; exact Occ.rev_rev _

theorem count_sum (σ : Conf n) : σ.count .hole + σ.count .down + σ.count .up = n := by
  have h : ∀ s : Fin n, (if σ s = .hole then 1 else 0) + (if σ s = .down then 1 else 0) + (if σ s = .up then 1 else 0) = 1 := by
    intro s; cases σ s <;> rfl
  unfold Conf.count
  rw [card_filter, card_filter, card_filter, ← sum_add_distrib, ← sum_add_distrib, sum_congr rfl fun s _ => h s]
  simp

theorem count_rev (σ : Conf n) : σ.rev.count .hole = σ.count .hole ∧ σ.rev.count .down = σ.count .up := by
  unfold Conf.count
  constructor <;>
  · congr 1
    ext s
    simp only [mem_filter, mem_univ, true_and]
    show (σ s).rev = _ ↔ _
    cases σ s <;> decide

theorem sectorEig_rev {h b b' : Nat} (hb : h + b + b' = n) (μ : K) :
    (sectorEig I pos B h b μ).map (LinearEquiv.funCongrLeft K K (revEquiv (n := n))).toLinearMap ≤ sectorEig I pos B h b' μ := by
  rintro _ ⟨ψ, ⟨h1, h2⟩, rfl⟩
  refine ⟨?_, ?_⟩
  · intro σ hσ
    have h3 := h1 σ.rev hσ
    rw [(count_rev σ).1, (count_rev σ).2] at h3
    have := count_sum σ
    omega
  · intro σ
    show tjOp I pos B (fun τ => ψ τ.rev) σ = μ * ψ σ.rev
    rw [← h2]
    unfold tjOp
    rw [← Equiv.sum_comp revEquiv]
    refine sum_congr rfl fun τ _ => ?_
    show hamEl I pos B σ τ.rev * ψ τ.rev.rev = _
    have e : τ.rev.rev = τ := revEquiv.left_inv τ
    rw [e, ← hamEl_rev I pos B σ τ.rev, e]

theorem sectorEig_rev_le {h b b' : Nat} (hb : h + b + b' = n) (μ : K) :
    Module.finrank K (sectorEig I pos B h b μ) ≤ Module.finrank K (sectorEig I pos B h b' μ) := by
  rw [← LinearEquiv.finrank_map_eq (LinearEquiv.funCongrLeft K K (revEquiv (n := n)))]
  exact Submodule.finrank_mono (sectorEig_rev I pos B hb μ)

end

theorem RectConf.with_nbeta {c : Config} {nbh nbv nb : Nat} (hc : RectConf c nbh nbv nb) (b : Nat) :
    RectConf { c with nbeta := b } nbh nbv nb := ⟨hc.hh, hc.hv, hc.hb, hc.ltype, hc.bond⟩

/-- C87. Sectors with up and down exchanged have the same energies, with the same multiplicities. -/
theorem C87_mirror_spectrum {K : Type} [Field K] (E : Env) (c : Config) (nbh nbv nb : Nat) (hc : RectConf c nbh nbv nb) (hf : c.Full)
    (b' : Nat) (hs : c.nholes + c.nbeta + b' = c.nsites) (I : Interactions K) (B : BoolInteractions)
    (dets dets' : List (List Nat)) (hb : constructBasis c = .ok dets) (hb' : constructBasis { c with nbeta := b' } = .ok dets')
    (H H' : SpMat K) (hH : buildHamiltonian E c I dets B = .ok H) (hH' : buildHamiltonian E { c with nbeta := b' } I dets' B = .ok H') (μ : K) :
    Module.finrank K (Module.End.eigenspace (Matrix.toLin' H.toMatrix) μ) =
      Module.finrank K (Module.End.eigenspace (Matrix.toLin' H'.toMatrix) μ) := by
  rw [eigenspace_map hc hf (by omega) hb hH, eigenspace_map (hc.with_nbeta b') hf (show c.nholes + b' ≤ c.nsites by omega) hb' hH']
  exact le_antisymm (sectorEig_rev_le _ _ _ hs μ) (sectorEig_rev_le _ _ _ (show c.nholes + b' + c.nbeta = c.nsites by omega) μ)

/-- 2 x 2 lattice with one hole: the sectors with one and with two down spins. -/
example : ∃ dets dets' H H', constructBasis (rectConf 2 2 1 1 1) = .ok dets ∧ constructBasis (rectConf 2 2 1 1 2) = .ok dets' ∧
    buildHamiltonian exEnv (rectConf 2 2 1 1 1) exI dets ⟨true, true, false, true, true, true⟩ = .ok H ∧
    buildHamiltonian exEnv (rectConf 2 2 1 1 2) exI dets' ⟨true, true, false, true, true, true⟩ = .ok H' ∧ H.dim = 12 ∧ H'.dim = 12 ∧
    ∀ μ : ℚ, Module.finrank ℚ (Module.End.eigenspace (Matrix.toLin' H.toMatrix) μ) =
      Module.finrank ℚ (Module.End.eigenspace (Matrix.toLin' H'.toMatrix) μ) := by
  have hc : RectConf (rectConf 2 2 1 1 1) 2 2 1 := rectConf_ok _ _ _ _ _ (by decide) (by decide) (by decide)
  have hf : Config.Full (rectConf 2 2 1 1 1) := by unfold Config.Full; decide
  obtain ⟨d, H, a1, a2, _, a3, _⟩ := C30_no_failure exEnv _ 2 2 1 hc hf (by decide) exI ⟨true, true, false, true, true, true⟩ [] false
  obtain ⟨d', H', b1, b2, _, b3, _⟩ := C30_no_failure exEnv _ 2 2 1 (hc.with_nbeta 2) hf (by decide) exI ⟨true, true, false, true, true, true⟩ [] false
  refine ⟨d, d', H, H', a1, b1, a2, b2, ?_, ?_, fun μ => C87_mirror_spectrum exEnv _ 2 2 1 hc hf 2 (by decide) exI _ d d' a1 b1 H H' a2 b2 μ⟩
  · have : (H.dim : Int) = 12 := a3.trans (by decide)
    omega
  · have : (H'.dim : Int) = 12 := b3.trans (by decide)
    omega

/-! ### C88 -/

section
variable {K : Type} [Field K] {n : Nat}

/-- One spin up is turned down, summed over all sites. -/
def lower : (Conf n → K) →ₗ[K] (Conf n → K) where
  toFun φ τ := ∑ a, if τ a = .down then φ (Function.update τ a .up) else 0
  map_add' φ ψ := by
    funext τ
    rw [Pi.add_apply, ← sum_add_distrib]
    refine sum_congr rfl fun a _ => ?_
    split_ifs
    · rfl
    · rw [add_zero]
  map_smul' x φ := by
    funext τ
    rw [Pi.smul_apply, smul_eq_mul, mul_sum]
    refine sum_congr rfl fun a _ => ?_
    split_ifs
    · rfl
    · simp

theorem sameHoles_update (τ : Conf n) (a : Fin n) (h : τ a = .down) : SameHoles τ (Function.update τ a .up) := by
  intro s
  by_cases e : s = a
  · subst e
    rw [Function.update_self, h]
    simp
  · rw [Function.update_of_ne e]

/-- The lowering operator commutes with every operator that permutes the sites. -/
theorem lower_comm {M : Conf n → Conf n → K} (hM : ExchKernel M) (φ : Conf n → K) (σ : Conf n) :
    (∑ τ, M σ τ * lower φ τ) = lower (fun σ => ∑ τ, M σ τ * φ τ) σ := by
  obtain ⟨X, _, k, π, h1, h2⟩ := hM
  rw [h2]
  show _ = ∑ a, if σ a = .down then (∑ τ, M (Function.update σ a .up) τ * φ τ) else 0
  have e1 : ∀ a, (if σ a = .down then (∑ τ, M (Function.update σ a .up) τ * φ τ) else 0) =
      ∑ x, if σ a = .down then k x σ * φ (fun s => Function.update σ a .up (π x s)) else 0 := by
    intro a
    split_ifs with h
    · rw [h2]
      exact sum_congr rfl fun x _ => by rw [← h1 x _ _ (sameHoles_update σ a h)]
    · simp
  rw [sum_congr rfl fun a _ => e1 a, sum_comm]
  refine sum_congr rfl fun x _ => ?_
  show k x σ * (∑ a, if σ (π x a) = .down then φ (Function.update (fun s => σ (π x s)) a .up) else 0) = _
  rw [mul_sum, ← Equiv.sum_comp (π x) (fun a => if σ a = .down then k x σ * φ (fun s => Function.update σ a .up (π x s)) else 0)]
  refine sum_congr rfl fun a _ => ?_
  have e : Function.update (fun s => σ (π x s)) a .up = fun s => Function.update σ (π x a) .up (π x s) := by
    funext s
    by_cases h : s = a
    · subst h; rw [Function.update_self, Function.update_self]
    · rw [Function.update_of_ne h, Function.update_of_ne (fun g => h ((π x).injective g))]
  rw [e]
  split_ifs <;> simp

theorem count_update (τ : Conf n) (a : Fin n) (h : τ a = .down) :
    Conf.count (Function.update τ a .up) .hole = τ.count .hole ∧ Conf.count (Function.update τ a .up) .down + 1 = τ.count .down := by
  constructor
  · unfold Conf.count
    congr 1
    ext s
    simp only [mem_filter, mem_univ, true_and]
    exact (sameHoles_update τ a h s).symm
  · unfold Conf.count
    have : (univ.filter fun s => Function.update τ a Occ.up s = .down) = (univ.filter fun s => τ s = .down).erase a := by
      ext s
      simp only [mem_filter, mem_univ, true_and, mem_erase]
      by_cases e : s = a
      · subst e; simp
      · rw [Function.update_of_ne e]; simp [e]
    rw [this]
    exact card_erase_add_one (by simp [h])

theorem lower_sector {h b : Nat} {φ : Conf n → K} (hφ : InSector h b φ) : InSector h (b + 1) (lower φ) := by
  intro τ hτ
  have hτ' : (∑ a, if τ a = .down then φ (Function.update τ a .up) else 0) ≠ 0 := hτ
  obtain ⟨a, _, ha⟩ := exists_ne_zero_of_sum_ne_zero hτ'
  have hd : τ a = .down := by
    by_contra k
    rw [if_neg k] at ha
    exact ha rfl
  rw [if_pos hd] at ha
  obtain ⟨k1, k2⟩ := hφ _ ha
  obtain ⟨c1, c2⟩ := count_update τ a hd
  omega

/-- The lowering operator loses no state with more up than down spins. -/
theorem lower_injective [LinearOrder K] [IsStrictOrderedRing K] {h b : Nat} (hb : h + 2 * b < n) {φ : Conf n → K} (hφ : InSector h b φ)
    (h0 : lower φ = 0) : φ = 0 := by
  have l1 := ladder_norm .up .down (by decide) (by decide) (by decide) φ
  have l2 := ladder_norm .down .up (by decide) (by decide) (by decide) φ
  have hcount : ∀ o : Occ, ∀ C : Nat, (∀ σ, φ σ ≠ 0 → σ.count o = C) → (∑ σ : Conf n, (σ.count o : K) * φ σ ^ 2) = C * ∑ σ, φ σ ^ 2 := by
    intro o C h
    rw [mul_sum]
    refine sum_congr rfl fun σ _ => ?_
    by_cases h0 : φ σ = 0
    · simp [h0]
    · rw [h σ h0]
  rw [hcount .down b (fun σ h => (hφ σ h).2)] at l1
  rw [hcount .up (n - h - b) (fun σ h' => by have := hφ σ h'; have := count_sum σ; omega)] at l2
  have z : ∀ τ, (∑ a, if τ a = Occ.down then φ (Function.update τ a .up) else 0) = 0 := fun τ => congrFun h0 τ
  simp only [z] at l2
  have p : 0 ≤ ∑ τ : Conf n, (∑ a, if τ a = Occ.up then φ (Function.update τ a .down) else 0) ^ 2 := sum_nonneg fun _ _ => sq_nonneg _
  have q : 0 ≤ ∑ σ, φ σ ^ 2 := sum_nonneg fun _ _ => sq_nonneg _
  have hlt : (b : K) + 1 ≤ ((n - h - b : Nat) : K) := by exact_mod_cast (show b + 1 ≤ n - h - b by omega)
  have q0 : ∑ σ, φ σ ^ 2 = 0 := by
    simp only [ne_eq, OfNat.ofNat_ne_zero, not_false_eq_true, zero_pow, sum_const_zero] at l2
    nlinarith
  funext σ
  have := (sum_eq_zero_iff_of_nonneg (fun σ _ => sq_nonneg (φ σ))).1 q0 σ (mem_univ _)
  exact pow_eq_zero_iff (two_ne_zero) |>.1 this

theorem sectorEig_lower [LinearOrder K] [IsStrictOrderedRing K] (I : Interactions K) (pos : Fin n → Pt) (B : BoolInteractions) (hB : B.bz = B.bij)
    {h b : Nat} (hb : h + 2 * b < n) (μ : K) :
    Module.finrank K (sectorEig I pos B h b μ) ≤ Module.finrank K (sectorEig I pos B h (b + 1) μ) := by
  have hM : ExchKernel (hamEl I pos B) := ham_kernel two_ne_zero I _ B hB
  have hmem : ∀ ψ : sectorEig I pos B h b μ, lower (ψ : Conf n → K) ∈ sectorEig I pos B h (b + 1) μ := by
    rintro ⟨ψ, h1, h2⟩
    refine ⟨lower_sector h1, fun σ => ?_⟩
    unfold tjOp
    rw [lower_comm hM]
    have : (fun σ => ∑ τ, hamEl I pos B σ τ * ψ τ) = μ • ψ := by
      funext σ
      exact h2 σ
    rw [this, LinearMap.map_smul]
    rfl
  refine LinearMap.finrank_le_finrank_of_injective (f := (lower.comp (Submodule.subtype _)).codRestrict _ hmem) ?_
  rw [← LinearMap.ker_eq_bot, LinearMap.ker_eq_bot']
  rintro ⟨ψ, h1, h2⟩ h0
  have : lower ψ = 0 := congrArg Subtype.val h0
  exact Subtype.ext (lower_injective hb h1 this)

theorem sectorEig_lower_many [LinearOrder K] [IsStrictOrderedRing K] (I : Interactions K) (pos : Fin n → Pt) (B : BoolInteractions) (hB : B.bz = B.bij)
    {h b : Nat} (μ : K) : ∀ k, h + 2 * (b + k) ≤ n →
    Module.finrank K (sectorEig I pos B h b μ) ≤ Module.finrank K (sectorEig I pos B h (b + k) μ)
  | 0, _ => le_refl _
  | k + 1, hk => (sectorEig_lower_many I pos B hB μ k (by omega)).trans (sectorEig_lower I pos B hB (by omega) μ)

end

/-- C88. With the static and the flip part of the spin coupling both on or both off, every energy of a sector is an energy of
every less polarised sector with the same number of holes, with at least the same multiplicity. -/
theorem C88_energies_occur {K : Type} [Field K] [LinearOrder K] [IsStrictOrderedRing K] (E : Env) (c : Config) (nbh nbv nb : Nat)
    (hc : RectConf c nbh nbv nb) (hf : c.Full) (b' : Nat) (h1 : c.nbeta ≤ b') (h2 : c.nholes + 2 * b' ≤ c.nsites)
    (I : Interactions K) (B : BoolInteractions) (hB : B.bz = B.bij)
    (dets dets' : List (List Nat)) (hb : constructBasis c = .ok dets) (hb' : constructBasis { c with nbeta := b' } = .ok dets')
    (H H' : SpMat K) (hH : buildHamiltonian E c I dets B = .ok H) (hH' : buildHamiltonian E { c with nbeta := b' } I dets' B = .ok H') (μ : K) :
    Module.finrank K (Module.End.eigenspace (Matrix.toLin' H.toMatrix) μ) ≤
      Module.finrank K (Module.End.eigenspace (Matrix.toLin' H'.toMatrix) μ) := by
  rw [eigenspace_map hc hf (by omega) hb hH, eigenspace_map (hc.with_nbeta b') hf (show c.nholes + b' ≤ c.nsites by omega) hb' hH']
  obtain ⟨k, rfl⟩ : ∃ k, b' = c.nbeta + k := ⟨b' - c.nbeta, by omega⟩
  exact sectorEig_lower_many I _ B hB μ k h2

/-- 2 x 2 lattice with one hole: the four energies of the polarised sector occur among the twelve of the sector with one down spin. -/
example : ∃ dets dets' H H', constructBasis (rectConf 2 2 1 1 0) = .ok dets ∧ constructBasis (rectConf 2 2 1 1 1) = .ok dets' ∧
    buildHamiltonian exEnv (rectConf 2 2 1 1 0) exI dets ⟨true, true, true, true, true, true⟩ = .ok H ∧
    buildHamiltonian exEnv (rectConf 2 2 1 1 1) exI dets' ⟨true, true, true, true, true, true⟩ = .ok H' ∧ H.dim = 4 ∧ H'.dim = 12 ∧
    ∀ μ : ℚ, Module.finrank ℚ (Module.End.eigenspace (Matrix.toLin' H.toMatrix) μ) ≤
      Module.finrank ℚ (Module.End.eigenspace (Matrix.toLin' H'.toMatrix) μ) := by
  have hc : RectConf (rectConf 2 2 1 1 0) 2 2 1 := rectConf_ok _ _ _ _ _ (by decide) (by decide) (by decide)
  have hf : Config.Full (rectConf 2 2 1 1 0) := by unfold Config.Full; decide
  obtain ⟨d, H, a1, a2, _, a3, _⟩ := C30_no_failure exEnv _ 2 2 1 hc hf (by decide) exI ⟨true, true, true, true, true, true⟩ [] false
  obtain ⟨d', H', b1, b2, _, b3, _⟩ := C30_no_failure exEnv _ 2 2 1 (hc.with_nbeta 1) hf (by decide) exI ⟨true, true, true, true, true, true⟩ [] false
  refine ⟨d, d', H, H', a1, b1, a2, b2, ?_, ?_,
    fun μ => C88_energies_occur exEnv _ 2 2 1 hc hf 1 (by decide) (by decide) exI _ rfl d d' a1 b1 H H' a2 b2 μ⟩
  · have : (H.dim : Int) = 4 := a3.trans (by decide)
    omega
  · have : (H'.dim : Int) = 12 := b3.trans (by decide)
    omega

instance : DecidableEq (SpMat ℚ) := fun a b =>
  decidable_of_iff (a.dim = b.dim ∧ a.coo = b.coo) ⟨fun h => by cases a; cases b; simp_all, fun h => by subst h; exact ⟨rfl, rfl⟩⟩

/-- The hypothesis on the two parts of the coupling is needed: with the static part alone the polarised energy 0 of two electrons
is no energy of the sector with one up and one down spin. -/
theorem C88_static_alone : ∃ H H',
    buildHamiltonian exEnv (rectConf 2 1 1 0 0) exI (basisList 2 0 0) ⟨true, true, false, true, true, false⟩ = .ok H ∧
    buildHamiltonian exEnv (rectConf 2 1 1 0 1) exI (basisList 2 0 1) ⟨true, true, false, true, true, false⟩ = .ok H' ∧
    Module.finrank ℚ (Module.End.eigenspace (Matrix.toLin' H.toMatrix) 0) = 1 ∧
    Module.finrank ℚ (Module.End.eigenspace (Matrix.toLin' H'.toMatrix) 0) = 0 := by
  refine ⟨⟨1, [(0, 0, 0)]⟩, ⟨2, [(-1, 0, 0), (-1, 1, 1)]⟩, by decide +kernel, by decide +kernel, ?_, ?_⟩
  · have : (SpMat.toMatrix ⟨1, [((0 : ℚ), 0, 0)]⟩ : Matrix (Fin 1) (Fin 1) ℚ) = 0 := by decide +kernel
    show Module.finrank ℚ (Module.End.eigenspace (Matrix.toLin' (SpMat.toMatrix ⟨1, [((0 : ℚ), 0, 0)]⟩ : Matrix (Fin 1) (Fin 1) ℚ)) 0) = 1
    rw [this, map_zero, Module.End.eigenspace_zero, LinearMap.ker_zero, finrank_top]
    simp
  · have : (SpMat.toMatrix ⟨2, [((-1 : ℚ), 0, 0), (-1, 1, 1)]⟩ : Matrix (Fin 2) (Fin 2) ℚ) = -1 := by decide +kernel
    show Module.finrank ℚ (Module.End.eigenspace (Matrix.toLin' (SpMat.toMatrix ⟨2, [((-1 : ℚ), 0, 0), (-1, 1, 1)]⟩ : Matrix (Fin 2) (Fin 2) ℚ)) 0) = 0
    rw [this, map_neg, Matrix.toLin'_one, Module.End.eigenspace_zero, LinearMap.ker_eq_bot.2]
    · simp
    · exact fun x y h => neg_injective h

end TJ
