/-
Property C146: how many states of an energy have which total spin, from the multiplicities of the energy in the sectors.
-/
import Verif.Props.MultipletDensity

namespace TJ

open Finset Matrix

section
variable {n : Nat}

/-- One spin down is turned up, summed over all sites. -/
noncomputable def raise : (Conf n → ℝ) →ₗ[ℝ] (Conf n → ℝ) :=
  (LinearEquiv.funCongrLeft ℝ ℝ (revEquiv (n := n))).toLinearMap ∘ₗ lower ∘ₗ (LinearEquiv.funCongrLeft ℝ ℝ (revEquiv (n := n))).toLinearMap

theorem rev_update (τ : Conf n) (a : Fin n) : Conf.rev (Function.update (Conf.rev τ) a .up) = Function.update τ a .down := by
  funext s
  show Occ.rev (Function.update (Conf.rev τ) a .up s) = _
  by_cases h : s = a
  · subst h
    rw [Function.update_self, Function.update_self]
    rfl
  · rw [Function.update_of_ne h, Function.update_of_ne h]
    exact Occ.rev_rev _

theorem raise_apply (φ : Conf n → ℝ) (τ : Conf n) : raise φ τ = ∑ a, if τ a = .up then φ (Function.update τ a .down) else 0 := by
  show (∑ a, if (Conf.rev τ) a = .down then φ (Conf.rev (Function.update (Conf.rev τ) a .up)) else 0) = _
  refine sum_congr rfl fun a _ => ?_
  rw [rev_update]
  have : ((Conf.rev τ) a = .down) ↔ τ a = .up := by
    show (τ a).rev = .down ↔ _
    cases τ a <;> simp [Occ.rev]
  simp only [this]

/-- Raising is adjoint to lowering. -/
theorem raise_adjoint (φ ψ : Conf n → ℝ) : ∑ τ, ψ τ * lower φ τ = ∑ σ, raise ψ σ * φ σ := by
  have e1 : ∑ τ, ψ τ * lower φ τ = ∑ a, ∑ τ : Conf n, if τ a = .down then ψ τ * φ (Function.update τ a .up) else 0 := by
    rw [sum_comm]
    refine sum_congr rfl fun τ _ => ?_
    show ψ τ * (∑ a, if τ a = .down then φ (Function.update τ a .up) else 0) = _
    rw [mul_sum]
    exact sum_congr rfl fun a _ => by rw [mul_ite, mul_zero]
  have e2 : ∑ σ, raise ψ σ * φ σ = ∑ a, ∑ σ : Conf n, if σ a = .up then ψ (Function.update σ a .down) * φ σ else 0 := by
    rw [sum_comm]
    refine sum_congr rfl fun τ _ => ?_
    rw [raise_apply, sum_mul]
    exact sum_congr rfl fun a _ => by rw [ite_mul, zero_mul]
  rw [e1, e2]
  refine sum_congr rfl fun a _ => ?_
  rw [← sum_filter, ← sum_filter]
  refine sum_bij' (fun τ _ => Function.update τ a .up) (fun σ _ => Function.update σ a .down) ?_ ?_ ?_ ?_ ?_
  · intro τ _
    simp
  · intro σ _
    simp
  · intro τ hτ
    rw [Function.update_idem, ← (mem_filter.1 hτ).2, Function.update_eq_self]
  · intro σ hσ
    rw [Function.update_idem, ← (mem_filter.1 hσ).2, Function.update_eq_self]
  · intro τ hτ
    rw [Function.update_idem]
    congr 2
    rw [← (mem_filter.1 hτ).2, Function.update_eq_self]

variable (I : Interactions ℝ) (pos : Fin n → Pt) (B : BoolInteractions)

theorem lower_mem (hB : B.bz = B.bij) {h b : Nat} {μ : ℝ} {φ : Conf n → ℝ} (hφ : φ ∈ sectorEig I pos B h b μ) :
    lower φ ∈ sectorEig I pos B h (b + 1) μ := by
  have hM : ExchKernel (hamEl I pos B) := ham_kernel two_ne_zero I _ B hB
  refine ⟨lower_sector hφ.1, fun σ => ?_⟩
  unfold tjOp
  rw [lower_comm hM]
  have : (fun σ => ∑ τ, hamEl I pos B σ τ * φ τ) = μ • φ := funext fun σ => hφ.2 σ
  rw [this, LinearMap.map_smul]
  rfl

theorem raise_mem (hB : B.bz = B.bij) {h b : Nat} (hb : h + (b + 1) ≤ n) {μ : ℝ} {φ : Conf n → ℝ} (hφ : φ ∈ sectorEig I pos B h (b + 1) μ) :
    raise φ ∈ sectorEig I pos B h b μ := by
  have h1 := sectorEig_rev I pos B (b' := n - h - (b + 1)) (by omega) μ (Submodule.mem_map_of_mem hφ)
  have h2 := lower_mem I pos B hB h1
  exact sectorEig_rev I pos B (b' := b) (by omega) μ (Submodule.mem_map_of_mem h2)

/-- The states of a sector with energy `μ` and total spin `q` (the eigenvalue of the square). -/
def sectorSpin (h b : Nat) (μ q : ℝ) : Submodule ℝ (Conf n → ℝ) where
  carrier := {ψ | ψ ∈ sectorEig I pos B h b μ ∧ ∀ σ, spin2 ψ σ = q * ψ σ}
  add_mem' := by
    rintro φ ψ ⟨h1, h2⟩ ⟨g1, g2⟩
    refine ⟨Submodule.add_mem _ h1 g1, fun σ => ?_⟩
    obtain ⟨M, -, m⟩ := spin2_kernel (n := n)
    have := h2 σ
    have := g2 σ
    simp only [← m] at *
    simp only [Pi.add_apply, mul_add, sum_add_distrib]
    linarith
  zero_mem' := ⟨Submodule.zero_mem _, fun σ => by
    obtain ⟨M, -, m⟩ := spin2_kernel (n := n)
    rw [← m]
    simp⟩
  smul_mem' := by
    rintro a φ ⟨h1, h2⟩
    refine ⟨Submodule.smul_mem _ _ h1, fun σ => ?_⟩
    obtain ⟨M, -, m⟩ := spin2_kernel (n := n)
    have := h2 σ
    simp only [← m] at *
    rw [Pi.smul_apply, smul_eq_mul, mul_left_comm, ← this, mul_sum]
    exact sum_congr rfl fun τ _ => by rw [Pi.smul_apply, smul_eq_mul]; ring

/-- The least total spin of a sector: half of the difference of the numbers of up and down spins. -/
noncomputable def leastSpin (n h b : Nat) : ℝ := (((n - h - b : Nat) : ℝ) - b) / 2 * ((((n - h - b : Nat) : ℝ) - b) / 2 + 1)

/-- The norm of a raised state of given total spin. -/
theorem raise_norm {h b : Nat} {q : ℝ} {χ : Conf n → ℝ} (hχ : InSector h b χ) (hq : ∀ σ, spin2 χ σ = q * χ σ) :
    ∑ τ, raise χ τ * raise χ τ = (q - leastSpin n h b) * ∑ σ, χ σ * χ σ := by
  have l := ladder_norm .up .down (by decide) (by decide) (by decide) χ
  have e1 : ∑ τ, raise χ τ * raise χ τ = ∑ τ : Conf n, (∑ a, if τ a = .up then χ (Function.update τ a .down) else 0) ^ 2 :=
    sum_congr rfl fun τ _ => by rw [raise_apply, sq]
  rw [e1, l, ← sum_add_distrib, mul_sum]
  refine sum_congr rfl fun σ _ => ?_
  by_cases h0 : χ σ = 0
  · rw [h0]
    simp
  · obtain ⟨c1, c2⟩ := hχ σ h0
    have c3 := count_sum σ
    have c4 : σ.count .up = n - h - b := by omega
    have hs := hq σ
    rw [spin2_eq two_ne_zero] at hs
    have hel : (σ.electrons : ℝ) = ((n - h - b : Nat) : ℝ) + b := by
      have : σ.electrons = σ.count .up + σ.count .down := by
        unfold Conf.electrons
        omega
      rw [this, c4, c2]
      push_cast
      ring
    rw [hel, c4, c2] at hs
    have hx : (∑ a, ∑ b, if a < b ∧ σ a ≠ .hole ∧ σ b ≠ .hole ∧ σ a ≠ σ b then χ σ * χ (exch σ a b) else 0) =
        χ σ * ∑ a, ∑ b, if a < b ∧ σ a ≠ .hole ∧ σ b ≠ .hole ∧ σ a ≠ σ b then χ (exch σ a b) else 0 := by
      rw [mul_sum]
      refine sum_congr rfl fun a _ => ?_
      rw [mul_sum]
      refine sum_congr rfl fun b _ => ?_
      rw [mul_ite, mul_zero]
    rw [hx, c2]
    have hs' := eq_sub_of_add_eq' hs
    rw [hs']
    unfold leastSpin
    ring

theorem sum_sq_zero {φ : Conf n → ℝ} (h : ∑ σ, φ σ * φ σ = 0) : φ = 0 := by
  funext σ
  exact mul_self_eq_zero.1 ((sum_eq_zero_iff_of_nonneg fun σ _ => mul_self_nonneg (φ σ)).1 h σ (mem_univ _))

theorem raise_zero_iff {h b : Nat} {μ : ℝ} {φ : Conf n → ℝ} (hφ : φ ∈ sectorEig I pos B h b μ) :
    raise φ = 0 ↔ φ ∈ sectorSpin I pos B h b μ (leastSpin n h b) := by
  constructor
  · intro h0
    refine ⟨hφ, fun σ => ?_⟩
    have := spin2_extremal (o := .up) (by decide) φ (fun τ => by
      have := congrFun h0 τ
      rw [raise_apply] at this
      exact this) σ
    rw [this]
    by_cases hz : φ σ = 0
    · rw [hz, mul_zero, mul_zero]
    · obtain ⟨c1, c2⟩ := hφ.1 σ hz
      have c3 := count_sum σ
      have c4 : σ.count .up = n - h - b := by omega
      have c5 : σ.count Occ.up.rev = b := c2
      rw [c4, c5]
      rfl
  · rintro ⟨_, h2⟩
    have := raise_norm hφ.1 h2
    rw [sub_self, zero_mul] at this
    exact sum_sq_zero this

/-- The states of least total spin are those by which the multiplicity exceeds the one of the next more polarised sector. -/
theorem least_count (hB : B.bz = B.bij) {h b : Nat} (hb : h + 2 * b < n) (μ : ℝ) :
    Module.finrank ℝ (sectorSpin I pos B h (b + 1) μ (leastSpin n h (b + 1))) + Module.finrank ℝ (sectorEig I pos B h b μ) =
      Module.finrank ℝ (sectorEig I pos B h (b + 1) μ) := by
  let V := sectorEig I pos B h (b + 1) μ
  let U := sectorEig I pos B h b μ
  let R : V →ₗ[ℝ] U := (raise.comp V.subtype).codRestrict U (fun φ => raise_mem I pos B hB (by omega) φ.2)
  let L : U →ₗ[ℝ] V := (lower.comp U.subtype).codRestrict V (fun φ => lower_mem I pos B hB φ.2)
  have hRL : Function.Injective (R.comp L) := by
    rw [← LinearMap.ker_eq_bot, LinearMap.ker_eq_bot']
    rintro ⟨φ, hφ⟩ h0
    have h1 : raise (lower φ) = 0 := congrArg Subtype.val h0
    have h2 := raise_adjoint φ (lower φ)
    rw [h1] at h2
    have h3 : lower φ = 0 := sum_sq_zero (by rw [h2]; simp)
    exact Subtype.ext (lower_injective hb hφ.1 h3)
  have hsurj : Function.Surjective R := by
    have h1 : Function.Surjective (R.comp L) := LinearMap.injective_iff_surjective.1 hRL
    intro u
    obtain ⟨w, hw⟩ := h1 u
    exact ⟨L w, hw⟩
  have hrn := LinearMap.finrank_range_add_finrank_ker R
  rw [LinearMap.range_eq_top.2 hsurj, finrank_top] at hrn
  have hker : Module.finrank ℝ (LinearMap.ker R) = Module.finrank ℝ (sectorSpin I pos B h (b + 1) μ (leastSpin n h (b + 1))) := by
    have hmap : Submodule.map V.subtype (LinearMap.ker R) = sectorSpin I pos B h (b + 1) μ (leastSpin n h (b + 1)) := by
      ext φ
      rw [Submodule.mem_map]
      constructor
      · rintro ⟨⟨ψ, hψ⟩, h1, rfl⟩
        exact (raise_zero_iff I pos B hψ).1 (congrArg Subtype.val (LinearMap.mem_ker.1 h1))
      · intro h1
        exact ⟨⟨φ, h1.1⟩, LinearMap.mem_ker.2 (Subtype.ext ((raise_zero_iff I pos B h1.1).2 h1)), rfl⟩
    rw [← hmap]
    exact (Submodule.equivMapOfInjective _ V.injective_subtype _).finrank_eq
  rw [← hker, ← hrn, add_comm]

/-- The total spin does not distinguish up and down. -/
theorem spin2_rev (φ : Conf n → ℝ) (σ : Conf n) : spin2 (fun τ => φ τ.rev) σ = spin2 φ σ.rev := by
  have he : σ.rev.electrons = σ.electrons := by
    have h1 := count_rev σ
    have h2 := count_sum σ
    have h3 := count_sum σ.rev
    unfold Conf.electrons
    omega
  have hh : ∀ a, (σ.rev a ≠ .hole) ↔ σ a ≠ .hole := by
    intro a
    show (σ a).rev ≠ .hole ↔ _
    cases σ a <;> simp [Occ.rev]
  unfold spin2
  rw [he]
  congr 1
  refine sum_congr rfl fun a _ => sum_congr rfl fun b _ => ?_
  simp only [hh]
  rfl

theorem spin2_raise (φ : Conf n → ℝ) (σ : Conf n) : spin2 (raise φ) σ = raise (spin2 φ) σ := by
  have h1 : raise φ = fun τ => lower (fun τ => φ τ.rev) τ.rev := rfl
  have h2 : raise (spin2 φ) σ = lower (fun τ => spin2 φ τ.rev) σ.rev := rfl
  have h3 : (spin2 fun τ => φ τ.rev) = fun τ => spin2 φ τ.rev := funext fun τ => spin2_rev φ τ
  rw [h1, h2, spin2_rev, spin2_lower, h3]

theorem spin_smul_of {q : ℝ} {φ : Conf n → ℝ} (h : ∀ σ, spin2 φ σ = q * φ σ) (f : (Conf n → ℝ) →ₗ[ℝ] (Conf n → ℝ))
    (hf : ∀ σ, spin2 (f φ) σ = f (spin2 φ) σ) (σ : Conf n) : spin2 (f φ) σ = q * f φ σ := by
  rw [hf]
  have : spin2 φ = q • φ := funext h
  rw [this, LinearMap.map_smul]
  rfl

/-- The states of any other total spin are as many in both sectors. -/
theorem other_count (hB : B.bz = B.bij) {h b : Nat} (hb : h + 2 * b < n) (μ : ℝ) {q : ℝ} (hq : q ≠ leastSpin n h (b + 1)) :
    Module.finrank ℝ (sectorSpin I pos B h b μ q) = Module.finrank ℝ (sectorSpin I pos B h (b + 1) μ q) := by
  let V := sectorSpin I pos B h (b + 1) μ q
  let U := sectorSpin I pos B h b μ q
  let R : V →ₗ[ℝ] U := (raise.comp V.subtype).codRestrict U
    (fun φ => ⟨raise_mem I pos B hB (by omega) φ.2.1, spin_smul_of φ.2.2 raise (spin2_raise _)⟩)
  let L : U →ₗ[ℝ] V := (lower.comp U.subtype).codRestrict V
    (fun φ => ⟨lower_mem I pos B hB φ.2.1, spin_smul_of φ.2.2 lower (spin2_lower _)⟩)
  refine le_antisymm (LinearMap.finrank_le_finrank_of_injective (f := L) ?_) (LinearMap.finrank_le_finrank_of_injective (f := R) ?_)
  · rw [← LinearMap.ker_eq_bot, LinearMap.ker_eq_bot']
    rintro ⟨φ, hφ⟩ h0
    exact Subtype.ext (lower_injective hb hφ.1.1 (congrArg Subtype.val h0))
  · rw [← LinearMap.ker_eq_bot, LinearMap.ker_eq_bot']
    rintro ⟨φ, hφ⟩ h0
    have h1 : raise φ = 0 := congrArg Subtype.val h0
    have h2 := raise_norm hφ.1.1 hφ.2
    rw [h1] at h2
    have h3 : (q - leastSpin n h (b + 1)) * ∑ σ, φ σ * φ σ = 0 := by
      rw [← h2]
      simp
    exact Subtype.ext (sum_sq_zero ((mul_eq_zero.1 h3).resolve_left (sub_ne_zero.2 hq)))

theorem leastSpin_lt {h j b : Nat} (hj : j < b) (hb : h + 2 * b ≤ n) : leastSpin n h b < leastSpin n h j := by
  unfold leastSpin
  have e1 : ((n - h - b : Nat) : ℝ) = (n : ℝ) - h - b := by
    rw [Nat.cast_sub (by omega), Nat.cast_sub (by omega)]
  have e2 : ((n - h - j : Nat) : ℝ) = (n : ℝ) - h - j := by
    rw [Nat.cast_sub (by omega), Nat.cast_sub (by omega)]
  rw [e1, e2]
  have g1 : (j : ℝ) < b := by exact_mod_cast hj
  have g2 : (h : ℝ) + 2 * b ≤ n := by exact_mod_cast hb
  nlinarith

/-- All total spins that occur in a level. -/
theorem all_spins (hB : B.bz = B.bij) {h : Nat} (μ : ℝ) : ∀ b, h + 2 * b ≤ n →
    Module.finrank ℝ (sectorEig I pos B h b μ) = ∑ j ∈ range (b + 1), Module.finrank ℝ (sectorSpin I pos B h b μ (leastSpin n h j))
  | 0, hb => by
    have : sectorSpin I pos B h 0 μ (leastSpin n h 0) = sectorEig I pos B h 0 μ := by
      ext φ
      refine ⟨fun h => h.1, fun hφ => ⟨hφ, fun σ => ?_⟩⟩
      rw [spin2_polarised hφ.1]
      unfold leastSpin
      simp
    rw [zero_add, sum_range_one, this]
  | b + 1, hb => by
    rw [sum_range_succ, ← least_count I pos B hB (by omega) μ, all_spins hB μ b (by omega), add_comm]
    congr 1
    refine sum_congr rfl fun j hj => other_count I pos B hB (by omega) μ ?_
    exact (leastSpin_lt (mem_range.1 hj) hb).ne'

end

/-- The eigenvectors of an energy that have the total spin `q` (eigenvalue of the square). -/
def SpinEig (c : Config) (dets : List (List Nat)) (H : SpMat ℝ) (μ q : ℝ) : Set (Fin H.dim → ℝ) :=
  {x | H.toMatrix *ᵥ x = μ • x ∧ ∀ σ, spin2 (state c dets x) σ = q * state c dets x σ}

/-- The number of linearly independent eigenvectors of an energy that have the total spin `q`. -/
noncomputable def spinCount (c : Config) (dets : List (List Nat)) (H : SpMat ℝ) (μ q : ℝ) : Nat :=
  Module.finrank ℝ (Submodule.span ℝ (SpinEig c dets H μ q))

theorem spinCount_eq {c : Config} {dets : List (List Nat)} {E : Env} {nbh nbv nb : Nat} (hc : RectConf c nbh nbv nb) (hf : c.Full)
    (hn : c.nholes + c.nbeta ≤ c.nsites) {I : Interactions ℝ} {B : BoolInteractions} {r : List Nat} {vb : Bool}
    (hb : constructBasis c = .ok dets) {H : SpMat ℝ} (hH : buildHamiltonian E c I dets B r vb = .ok H) (μ q : ℝ) :
    spinCount c dets H μ q =
      Module.finrank ℝ (sectorSpin I (fun s : Fin c.nsites => gridPos (nbh * nb) s) B c.nholes c.nbeta μ q) := by
  obtain ⟨H', h1, hd, _, _⟩ := buildHamiltonian_spec I (hc.tj E) hf hn hb B r vb
  obtain rfl := Except.ok.inj (hH.symm.trans h1)
  have hinj := stateMap_injective (K := ℝ) hb hn hd
  have key : Submodule.map (stateMap hb hn hd) (Submodule.span ℝ (SpinEig c dets H μ q)) =
      sectorSpin I (fun s : Fin c.nsites => gridPos (nbh * nb) s) B c.nholes c.nbeta μ q := by
    rw [Submodule.map_span]
    have : stateMap hb hn hd '' SpinEig c dets H μ q =
        (sectorSpin I (fun s : Fin c.nsites => gridPos (nbh * nb) s) B c.nholes c.nbeta μ q : Set _) := by
      ext ψ
      constructor
      · rintro ⟨x, ⟨x1, x2⟩, rfl⟩
        exact ⟨(eigenvector_state hc hf hn hb hH x).1.1 x1, x2⟩
      · rintro ⟨h1, h2⟩
        obtain ⟨x, rfl⟩ := state_surj hb hn hd h1.1
        exact ⟨x, ⟨(eigenvector_state hc hf hn hb hH x).1.2 h1, h2⟩, rfl⟩
    rw [this, Submodule.span_eq]
  unfold spinCount
  rw [(Submodule.equivMapOfInjective _ hinj _).finrank_eq, key]

/-- S (S + 1) for S = m / 2. -/
noncomputable def spinSq (m : Nat) : ℝ := (m : ℝ) / 2 * ((m : ℝ) / 2 + 1)

theorem leastSpin_eq {n h j : Nat} (hj : h + 2 * j ≤ n) : leastSpin n h j = spinSq (n - h - 2 * j) := by
  unfold leastSpin spinSq
  have e1 : ((n - h - j : Nat) : ℝ) = (n : ℝ) - h - j := by
    rw [Nat.cast_sub (by omega), Nat.cast_sub (by omega)]
  have e2 : ((n - h - 2 * j : Nat) : ℝ) = (n : ℝ) - h - 2 * j := by
    rw [Nat.cast_sub (by omega), Nat.cast_sub (by omega)]
    push_cast
    ring
  rw [e1, e2]
  ring

/-- C146. The number of independent states of an energy with the least total spin of a sector is the multiplicity of the energy in the sector
minus that in the sector with one down spin less. -/
theorem C146_least (E : Env) (c : Config) (nbh nbv nb : Nat) (hc : RectConf c nbh nbv nb) (hf : c.Full)
    (h2 : c.nholes + 2 * (c.nbeta + 1) ≤ c.nsites) (I : Interactions ℝ) (B : BoolInteractions) (hB : B.bz = B.bij) (r r' : List Nat) (vb vb' : Bool)
    (dets dets' : List (List Nat)) (hb : constructBasis c = .ok dets) (hb' : constructBasis { c with nbeta := c.nbeta + 1 } = .ok dets')
    (H H' : SpMat ℝ) (hH : buildHamiltonian E c I dets B r vb = .ok H)
    (hH' : buildHamiltonian E { c with nbeta := c.nbeta + 1 } I dets' B r' vb' = .ok H') (μ : ℝ) :
    spinCount { c with nbeta := c.nbeta + 1 } dets' H' μ (spinSq (c.nsites - c.nholes - 2 * (c.nbeta + 1))) +
        Module.finrank ℝ (Module.End.eigenspace (Matrix.toLin' H.toMatrix) μ) =
      Module.finrank ℝ (Module.End.eigenspace (Matrix.toLin' H'.toMatrix) μ) := by
  have hn' : ({ c with nbeta := c.nbeta + 1 } : Config).nholes + ({ c with nbeta := c.nbeta + 1 } : Config).nbeta ≤
    ({ c with nbeta := c.nbeta + 1 } : Config).nsites := show c.nholes + (c.nbeta + 1) ≤ c.nsites by omega
  have hc' := hc.with_nbeta (c.nbeta + 1)
  rw [eigenspace_map hc hf (by omega) hb hH, eigenspace_map hc' hf hn' hb' hH', spinCount_eq hc' hf hn' hb' hH', ← leastSpin_eq h2]
  exact least_count I _ B hB (show c.nholes + 2 * c.nbeta < c.nsites by omega) μ

/-- C146. Every other total spin occurs equally often in the two sectors. -/
theorem C146_others (E : Env) (c : Config) (nbh nbv nb : Nat) (hc : RectConf c nbh nbv nb) (hf : c.Full)
    (h2 : c.nholes + 2 * (c.nbeta + 1) ≤ c.nsites) (I : Interactions ℝ) (B : BoolInteractions) (hB : B.bz = B.bij) (r r' : List Nat) (vb vb' : Bool)
    (dets dets' : List (List Nat)) (hb : constructBasis c = .ok dets) (hb' : constructBasis { c with nbeta := c.nbeta + 1 } = .ok dets')
    (H H' : SpMat ℝ) (hH : buildHamiltonian E c I dets B r vb = .ok H)
    (hH' : buildHamiltonian E { c with nbeta := c.nbeta + 1 } I dets' B r' vb' = .ok H') (μ q : ℝ)
    (hq : q ≠ spinSq (c.nsites - c.nholes - 2 * (c.nbeta + 1))) :
    spinCount { c with nbeta := c.nbeta + 1 } dets' H' μ q = spinCount c dets H μ q := by
  have hn' : ({ c with nbeta := c.nbeta + 1 } : Config).nholes + ({ c with nbeta := c.nbeta + 1 } : Config).nbeta ≤
    ({ c with nbeta := c.nbeta + 1 } : Config).nsites := show c.nholes + (c.nbeta + 1) ≤ c.nsites by omega
  have hc' := hc.with_nbeta (c.nbeta + 1)
  rw [spinCount_eq hc hf (by omega) hb hH, spinCount_eq hc' hf hn' hb' hH']
  rw [← leastSpin_eq h2] at hq
  exact (other_count I _ B hB (show c.nholes + 2 * c.nbeta < c.nsites by omega) μ hq).symm

/-- C146. The multiplicity of an energy is the sum of the numbers of its states with spin (N - 2 j) / 2, N electrons, j up to the number of
down spins: no other total spins are needed. -/
theorem C146_all_spins (E : Env) (c : Config) (nbh nbv nb : Nat) (hc : RectConf c nbh nbv nb) (hf : c.Full)
    (h2 : c.nholes + 2 * c.nbeta ≤ c.nsites) (I : Interactions ℝ) (B : BoolInteractions) (hB : B.bz = B.bij) (r : List Nat) (vb : Bool)
    (dets : List (List Nat)) (hb : constructBasis c = .ok dets) (H : SpMat ℝ) (hH : buildHamiltonian E c I dets B r vb = .ok H) (μ : ℝ) :
    Module.finrank ℝ (Module.End.eigenspace (Matrix.toLin' H.toMatrix) μ) =
      ∑ j ∈ range (c.nbeta + 1), spinCount c dets H μ (spinSq (c.nsites - c.nholes - 2 * j)) := by
  rw [eigenspace_map hc hf (by omega) hb hH, all_spins I _ B hB μ c.nbeta h2]
  refine sum_congr rfl fun j hj => ?_
  rw [spinCount_eq hc hf (by omega) hb hH, leastSpin_eq (by have := mem_range.1 hj; omega)]

/-- C146. The spin number reported for the states counted, as long as the set order lists the holes increasingly. -/
theorem C146_reported (S : SetSem) (swap : Bool) (c : Config) (hf : c.Full)
    (ho : HolesInOrder S c) (hn : c.nholes + c.nbeta ≤ c.nsites) (dets : List (List Nat)) (hb : constructBasis c = .ok dets) (H : SpMat ℝ)
    (hd : H.dim = dets.length) (μ : ℝ) (m : Nat) (x : Fin H.dim → ℝ) (hx : x ∈ SpinEig c dets H μ (spinSq m)) (hne : x ≠ 0) :
    computeSpinNumber S swap c (List.ofFn x) = .ok (.num ((m : ℝ) / 2)) :=
  spin_number_of hf ho hn hb hd x hne m hx.2

/-- One hole and three electrons in a square, all terms, one down spin: every energy has as many states of spin 1/2 as its multiplicity exceeds
that among the polarised states, all others have spin 3/2, and these numbers are the ones reported. -/
example : ∃ (dets dets' : List (List Nat)) (H H' : SpMat ℝ), constructBasis (rectConf 2 2 1 1 0) = .ok dets ∧
    constructBasis (rectConf 2 2 1 1 1) = .ok dets' ∧
    buildHamiltonian exEnv (rectConf 2 2 1 1 0) ⟨1, 2, 3, 5, 7, 11, 13, 17, 19, 23⟩ dets ⟨true, true, true, true, true, true⟩ [] false = .ok H ∧
    buildHamiltonian exEnv (rectConf 2 2 1 1 1) ⟨1, 2, 3, 5, 7, 11, 13, 17, 19, 23⟩ dets' ⟨true, true, true, true, true, true⟩ [] false = .ok H' ∧
    ∀ μ : ℝ, spinCount (rectConf 2 2 1 1 1) dets' H' μ (3 / 4) + Module.finrank ℝ (Module.End.eigenspace (Matrix.toLin' H.toMatrix) μ) =
        Module.finrank ℝ (Module.End.eigenspace (Matrix.toLin' H'.toMatrix) μ) ∧
      spinCount (rectConf 2 2 1 1 1) dets' H' μ (15 / 4) = Module.finrank ℝ (Module.End.eigenspace (Matrix.toLin' H.toMatrix) μ) ∧
      ∀ x ∈ SpinEig (rectConf 2 2 1 1 1) dets' H' μ (3 / 4), x ≠ 0 →
        computeSpinNumber SetSem.listed false (rectConf 2 2 1 1 1) (List.ofFn x) = .ok (.num (1 / 2)) := by
  have hc : RectConf (rectConf 2 2 1 1 0) 2 2 1 := rectConf_ok _ _ _ _ _ (by decide) (by decide) (by decide)
  have hf : Config.Full (rectConf 2 2 1 1 0) := by unfold Config.Full; decide
  obtain ⟨d, H, a1, a2, _⟩ := C30_no_failure exEnv _ 2 2 1 hc hf (by decide) (⟨1, 2, 3, 5, 7, 11, 13, 17, 19, 23⟩ : Interactions ℝ)
    ⟨true, true, true, true, true, true⟩ [] false
  obtain ⟨d', H', b1, b2, _⟩ := C30_no_failure exEnv _ 2 2 1 (hc.with_nbeta 1) hf (by decide)
    (⟨1, 2, 3, 5, 7, 11, 13, 17, 19, 23⟩ : Interactions ℝ) ⟨true, true, true, true, true, true⟩ [] false
  obtain ⟨G, g1, hd, _, _⟩ := buildHamiltonian_spec (⟨1, 2, 3, 5, 7, 11, 13, 17, 19, 23⟩ : Interactions ℝ) ((hc.with_nbeta 1).tj exEnv) hf (by decide)
    b1 ⟨true, true, true, true, true, true⟩ [] false
  obtain rfl := Except.ok.inj (b2.symm.trans g1)
  have q1 : spinSq ((rectConf 2 2 1 1 0).nsites - (rectConf 2 2 1 1 0).nholes - 2 * ((rectConf 2 2 1 1 0).nbeta + 1)) = 3 / 4 := by
    show spinSq 1 = _
    unfold spinSq
    norm_num
  have q0 : spinSq ((rectConf 2 2 1 1 1).nsites - (rectConf 2 2 1 1 1).nholes - 2 * 0) = 15 / 4 := by
    show spinSq 3 = _
    unfold spinSq
    norm_num
  refine ⟨d, d', H, H', a1, b1, a2, b2, fun μ => ?_⟩
  have e1 := C146_least exEnv _ 2 2 1 hc hf (by decide) _ _ rfl _ _ _ _ d d' a1 b1 H H' a2 b2 μ
  have e2 := C146_all_spins exEnv _ 2 2 1 (hc.with_nbeta 1) hf (by decide) _ _ rfl _ _ d' b1 H' b2 μ
  rw [q1] at e1
  have e3 : Module.finrank ℝ (Module.End.eigenspace (Matrix.toLin' H'.toMatrix) μ) =
      spinCount (rectConf 2 2 1 1 1) d' H' μ (15 / 4) + spinCount (rectConf 2 2 1 1 1) d' H' μ (3 / 4) := by
    refine e2.trans ?_
    show ∑ j ∈ range 2, spinCount (rectConf 2 2 1 1 1) d' H' μ (spinSq (_ - _ - 2 * j)) = _
    rw [sum_range_succ, sum_range_one]
    exact congrArg₂ (fun p q => spinCount (rectConf 2 2 1 1 1) d' H' μ p + spinCount (rectConf 2 2 1 1 1) d' H' μ q) q0 q1
  have e4 : spinCount (rectConf 2 2 1 1 1) d' H' μ (3 / 4) + Module.finrank ℝ (Module.End.eigenspace (Matrix.toLin' H.toMatrix) μ) =
        Module.finrank ℝ (Module.End.eigenspace (Matrix.toLin' H'.toMatrix) μ) := e1
  refine ⟨e4, by omega, fun x hx hne => ?_⟩
  have := C146_reported SetSem.listed false (rectConf 2 2 1 1 1) hf (C39_one_hole_in_order SetSem.listed _ (by decide)) (by decide) d' b1 H' hd μ 1 x
    (by rw [show spinSq 1 = 3 / 4 from q1]; exact hx) hne
  rw [this]
  norm_num

end TJ
