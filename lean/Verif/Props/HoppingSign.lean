/-
Property C104: the sign of the nearest-neighbour hopping.
-/
import Verif.Props.Multiplets

namespace TJ

open Finset Matrix

/-! ### C104 -/

/-- The couplings with the opposite sign of `t`. -/
def oppositeT {K : Type} [Field K] (I : Interactions K) : Interactions K := { I with t := - I.t }

section
variable {K : Type} [Field K] {n : Nat} (I : Interactions K) (pos : Fin n → Pt) (B : BoolInteractions)

/-- The colour of a point of the checkerboard. -/
def colourSign (p : Pt) : K := if (p.1 + p.2) % 2 = 0 then 1 else -1

theorem colourSign_sq (p : Pt) : (colourSign p : K) * colourSign p = 1 := by
  unfold colourSign
  split_ifs <;> ring

theorem colourSign_near {p q : Pt} (h : Near p q) : (colourSign p : K) * colourSign q = -1 := by
  unfold colourSign
  unfold Near at h
  split_ifs <;> first | (exfalso; omega) | ring

theorem colourSign_two {p m q : Pt} (h : Near p m) (h' : Near m q) : (colourSign p : K) * colourSign q = 1 := by
  have h1 := colourSign_near (K := K) h
  have h2 := colourSign_near (K := K) h'
  have h3 := colourSign_sq (K := K) m
  linear_combination (colourSign m * colourSign q : K) * h1 - h2 - (colourSign p * colourSign q : K) * h3

/-- The product of the colours of the holes. -/
def holeSign (σ : Conf n) : K := ∏ s, if σ s = .hole then colourSign (pos s) else 1

theorem holeSign_sq (σ : Conf n) : (holeSign pos σ : K) * holeSign pos σ = 1 := by
  unfold holeSign
  rw [← prod_mul_distrib]
  refine prod_eq_one fun s _ => ?_
  split_ifs
  · exact colourSign_sq _
  · exact one_mul 1

theorem holeSign_congr {σ τ : Conf n} (h : SameHoles σ τ) : (holeSign pos σ : K) = holeSign pos τ := by
  unfold holeSign
  refine prod_congr rfl fun s _ => ?_
  by_cases h1 : σ s = .hole
  · rw [if_pos h1, if_pos ((h s).1 h1)]
  · rw [if_neg h1, if_neg (fun h2 => h1 ((h s).2 h2))]

theorem holeSign_exch {σ : Conf n} {a b : Fin n} (ha : σ a = .hole) (hb : σ b ≠ .hole) :
    (holeSign pos σ : K) * holeSign pos (exch σ a b) = colourSign (pos a) * colourSign (pos b) := by
  have e : (holeSign pos (exch σ a b) : K) = ∏ s, if σ s = .hole then colourSign (pos (Equiv.swap a b s)) else 1 := by
    unfold holeSign
    rw [← Equiv.prod_comp (Equiv.swap a b)]
    refine prod_congr rfl fun s _ => ?_
    unfold exch
    rw [Equiv.swap_apply_self]
  rw [e]
  unfold holeSign
  rw [← prod_mul_distrib]
  have t : ∀ s, ((if σ s = .hole then colourSign (pos s) else 1 : K) * if σ s = .hole then colourSign (pos (Equiv.swap a b s)) else 1) =
      if s = a then colourSign (pos a) * colourSign (pos b) else 1 := by
    intro s
    by_cases h1 : s = a
    · subst h1
      rw [if_pos ha, if_pos ha, if_pos rfl, Equiv.swap_apply_left]
    · rw [if_neg h1]
      by_cases h2 : σ s = .hole
      · have h3 : s ≠ b := fun h => hb (h ▸ h2)
        rw [if_pos h2, if_pos h2, Equiv.swap_apply_of_ne_of_ne h1 h3]
        exact colourSign_sq _
      · rw [if_neg h2, if_neg h2, one_mul]
  rw [prod_congr rfl fun s _ => t s, prod_ite_eq' univ a, if_pos (mem_univ _)]

theorem mul_ite_sum2 {α : Type} (x : K) (s : Finset α) (p : α → α → Prop) [∀ a b, Decidable (p a b)] (f g : α → α → K)
    (h : ∀ a b, p a b → f a b = x * g a b) :
    (∑ a ∈ s, ∑ b ∈ s, if p a b then f a b else 0) = x * ∑ a ∈ s, ∑ b ∈ s, if p a b then g a b else 0 := by
  rw [mul_sum]
  refine sum_congr rfl fun a _ => ?_
  rw [mul_sum]
  refine sum_congr rfl fun b _ => ?_
  by_cases k : p a b
  · rw [if_pos k, if_pos k, h a b k]
  · rw [if_neg k, if_neg k, mul_zero]

/-- The sign of `t` is undone by the colours of the holes. -/
theorem hamEl_oppositeT (σ τ : Conf n) : hamEl (oppositeT I) pos B σ τ = holeSign pos σ * holeSign pos τ * hamEl I pos B σ τ := by
  have same : ∀ {σ τ : Conf n}, SameHoles σ τ → (holeSign pos σ * holeSign pos τ : K) = 1 := by
    intro σ τ h
    rw [holeSign_congr pos h]
    exact holeSign_sq pos τ
  have t1 : hopEl (oppositeT I) pos σ τ = holeSign pos σ * holeSign pos τ * hopEl I pos σ τ := by
    refine mul_ite_sum2 _ _ _ _ _ ?_
    rintro a b ⟨h1, h2, h3, rfl⟩
    rw [holeSign_exch pos h1 h2, colourSign_near h3]
    show - I.t = _
    ring
  have t2 : nextEl (oppositeT I) pos σ τ = holeSign pos σ * holeSign pos τ * nextEl I pos σ τ := by
    refine mul_ite_sum2 _ _ _ _ _ ?_
    rintro a b ⟨h1, h2, ⟨m, h3, h4⟩, rfl⟩
    rw [holeSign_exch pos h1 h2, colourSign_two h3 h4, one_mul]
    rfl
  have t3 : staticEl (oppositeT I) pos σ τ = holeSign pos σ * holeSign pos τ * staticEl I pos σ τ := by
    unfold staticEl
    split_ifs with h
    · subst h
      rw [holeSign_sq, one_mul]
      rfl
    · rw [mul_zero]
  have t4 : repEl (oppositeT I) pos σ τ = holeSign pos σ * holeSign pos τ * repEl I pos σ τ := by
    unfold repEl
    split_ifs with h
    · subst h
      rw [holeSign_sq, one_mul]
      rfl
    · rw [mul_zero]
  have t5 : flipEl (oppositeT I) pos σ τ = holeSign pos σ * holeSign pos τ * flipEl I pos σ τ := by
    refine mul_ite_sum2 _ _ _ _ _ ?_
    rintro a b ⟨h1, h2, h3, h4, h5, rfl⟩
    rw [same (fun s => (exch_hole_iff h3 h4 s).symm), one_mul]
    rfl
  have t6 : sdEl (oppositeT I) pos σ τ = holeSign pos σ * holeSign pos τ * sdEl I pos σ τ := by
    unfold sdEl
    rw [mul_sum]
    refine sum_congr rfl fun a _ => ?_
    rw [mul_sum]
    refine sum_congr rfl fun m _ => ?_
    rw [mul_sum]
    refine sum_congr rfl fun b _ => ?_
    by_cases h : σ a = .hole ∧ σ m ≠ .hole ∧ σ b = (σ m).rev ∧ Near (pos a) (pos m) ∧ Near (pos m) (pos b)
    · rw [if_pos h, if_pos h]
      obtain ⟨h1, h2, h3, h4, h5⟩ := h
      have hb : σ b ≠ .hole := by
        rw [h3]
        exact fun k => h2 (Occ.rev_hole_iff.1 k)
      have e0 : (holeSign pos σ : K) * holeSign pos (exch σ a b) = 1 := by rw [holeSign_exch pos h1 hb, colourSign_two h4 h5]
      have hab : a ≠ b := by rintro rfl; exact hb h1
      have ham : a ≠ m := by rintro rfl; exact h2 h1
      have e1 : (holeSign pos (shift3 σ a m b) : K) = holeSign pos (exch σ a b) := by
        refine holeSign_congr pos fun s => ?_
        unfold shift3
        by_cases k1 : s = a
        · subst k1
          rw [if_pos rfl, exch_left]
          simp [h2, hb]
        · rw [if_neg k1]
          by_cases k2 : s = m
          · subst k2
            have k3 : s ≠ b := near_ne pos h5
            rw [if_pos rfl, exch_other σ k1 k3]
            simp [h2, hb]
          · rw [if_neg k2]
            by_cases k3 : s = b
            · subst k3
              rw [if_pos rfl, exch_right]
            · rw [if_neg k3, exch_other σ k1 k3]
      show (if Aligned (pos a) (pos m) (pos b) then I.hSDpar else I.hSDper) *
        ((if τ = shift3 σ a m b then 1 else 0) - (if τ = exch σ a b then 1 else 0)) = _
      have f1 : (holeSign pos σ * holeSign pos τ : K) * (if τ = shift3 σ a m b then 1 else 0) = if τ = shift3 σ a m b then 1 else 0 := by
        split_ifs with k
        · rw [k, e1, e0, one_mul]
        · rw [mul_zero]
      have f2 : (holeSign pos σ * holeSign pos τ : K) * (if τ = exch σ a b then 1 else 0) = if τ = exch σ a b then 1 else 0 := by
        split_ifs with k
        · rw [k, e0, one_mul]
        · rw [mul_zero]
      linear_combination (-(if Aligned (pos a) (pos m) (pos b) then I.hSDpar else I.hSDper : K)) * (f1 - f2)
    · rw [if_neg h, if_neg h, mul_zero]
  have it : ∀ (b : Bool) (x y : K), x = holeSign pos σ * holeSign pos τ * y →
      (if b then x else 0) = holeSign pos σ * holeSign pos τ * (if b then y else 0) := by
    intro b x y h
    cases b
    · simp
    · simpa using h
  unfold hamEl
  rw [it _ _ _ t1, it _ _ _ t2, it _ _ _ t3, it _ _ _ t4, it _ _ _ t5, it _ _ _ t6]
  ring

theorem sectorEig_oppositeT (h b : Nat) (μ : K) :
    Module.finrank K (sectorEig I pos B h b μ) ≤ Module.finrank K (sectorEig (oppositeT I) pos B h b μ) := by
  let f : (Conf n → K) →ₗ[K] (Conf n → K) :=
    { toFun := fun ψ σ => holeSign pos σ * ψ σ
      map_add' := fun φ ψ => by funext σ; simp only [Pi.add_apply]; ring
      map_smul' := fun a ψ => by funext σ; simp only [Pi.smul_apply, smul_eq_mul, RingHom.id_apply]; ring }
  have hf : ∀ ψ σ, holeSign pos σ * f ψ σ = ψ σ := by
    intro ψ σ
    show holeSign pos σ * (holeSign pos σ * ψ σ) = ψ σ
    rw [← mul_assoc, holeSign_sq, one_mul]
  have hmem : ∀ ψ : sectorEig I pos B h b μ, f (ψ : Conf n → K) ∈ sectorEig (oppositeT I) pos B h b μ := by
    rintro ⟨ψ, h1, h2⟩
    refine ⟨fun σ hσ => h1 σ (fun e => hσ (by show holeSign pos σ * ψ σ = 0; rw [e, mul_zero])), fun σ => ?_⟩
    show tjOp (oppositeT I) pos B (f ψ) σ = μ * (holeSign pos σ * ψ σ)
    rw [← mul_assoc, mul_comm μ, mul_assoc, ← h2]
    unfold tjOp
    rw [mul_sum]
    refine sum_congr rfl fun τ _ => ?_
    rw [hamEl_oppositeT]
    have := hf ψ τ
    linear_combination (holeSign pos σ * hamEl I pos B σ τ) * this
  refine LinearMap.finrank_le_finrank_of_injective (f := (f.comp (Submodule.subtype _)).codRestrict _ hmem) ?_
  rintro ⟨ψ, h1⟩ ⟨φ, h2⟩ h0
  have h0 : f ψ = f φ := congrArg Subtype.val h0
  refine Subtype.ext (funext fun σ => ?_)
  show ψ σ = φ σ
  rw [← hf ψ σ, h0, hf]

theorem oppositeT_oppositeT : oppositeT (oppositeT I) = I := by
  unfold oppositeT
  simp

end

/-- C104. The energies, with their multiplicities, do not depend on the sign of `t`, whatever the other couplings and switches. -/
theorem C104_sign_of_t {K : Type} [Field K] (E : Env) (c : Config) (nbh nbv nb : Nat) (hc : RectConf c nbh nbv nb) (hf : c.Full)
    (hn : c.nholes + c.nbeta ≤ c.nsites) (I : Interactions K) (B : BoolInteractions) (r : List Nat) (v : Bool)
    (dets : List (List Nat)) (hb : constructBasis c = .ok dets)
    (H H' : SpMat K) (hH : buildHamiltonian E c I dets B r v = .ok H)
    (hH' : buildHamiltonian E c { I with t := - I.t } dets B r v = .ok H') (μ : K) :
    Module.finrank K (Module.End.eigenspace (Matrix.toLin' H.toMatrix) μ) =
      Module.finrank K (Module.End.eigenspace (Matrix.toLin' H'.toMatrix) μ) := by
  rw [eigenspace_map hc hf hn hb hH, eigenspace_map hc hf hn hb hH']
  refine le_antisymm (sectorEig_oppositeT I _ B _ _ μ) ?_
  have := sectorEig_oppositeT (oppositeT I) (fun s : Fin c.nsites => gridPos (nbh * nb) s) B c.nholes c.nbeta μ
  rwa [oppositeT_oppositeT] at this

/-- 2 x 2 lattice with one hole and one down spin, all terms. -/
example : ∃ dets H H', constructBasis (rectConf 2 2 1 1 1) = .ok dets ∧
    buildHamiltonian exEnv (rectConf 2 2 1 1 1) exI dets ⟨true, true, true, true, true, true⟩ = .ok H ∧
    buildHamiltonian exEnv (rectConf 2 2 1 1 1) { exI with t := - exI.t } dets ⟨true, true, true, true, true, true⟩ = .ok H' ∧ H.dim = 12 ∧
    ∀ μ : ℚ, Module.finrank ℚ (Module.End.eigenspace (Matrix.toLin' H.toMatrix) μ) =
      Module.finrank ℚ (Module.End.eigenspace (Matrix.toLin' H'.toMatrix) μ) := by
  have hc : RectConf (rectConf 2 2 1 1 1) 2 2 1 := rectConf_ok _ _ _ _ _ (by decide) (by decide) (by decide)
  have hf : Config.Full (rectConf 2 2 1 1 1) := by unfold Config.Full; decide
  obtain ⟨d, H, a1, a2, _, a3, _⟩ := C30_no_failure exEnv _ 2 2 1 hc hf (by decide) exI ⟨true, true, true, true, true, true⟩ [] false
  obtain ⟨d', H', b1, b2, _, b3, _⟩ := C30_no_failure exEnv _ 2 2 1 hc hf (by decide) { exI with t := - exI.t } ⟨true, true, true, true, true, true⟩ [] false
  obtain rfl := Except.ok.inj (a1.symm.trans b1)
  refine ⟨d, H, H', a1, a2, b2, ?_, fun μ => C104_sign_of_t exEnv _ 2 2 1 hc hf (by decide) exI _ _ _ d a1 H H' a2 b2 μ⟩
  have : (H.dim : Int) = 12 := a3.trans (by decide)
  omega

/-- The eigenspaces of a matrix with opposite elements. -/
theorem finrank_opposite {K : Type} [Field K] (H H' : SpMat K) (hd : H'.dim = H.dim) (he : ∀ i j, H'.entry i j = - H.entry i j) (μ : K) :
    Module.finrank K (Module.End.eigenspace (Matrix.toLin' H'.toMatrix) (-μ)) =
      Module.finrank K (Module.End.eigenspace (Matrix.toLin' H.toMatrix) μ) := by
  obtain ⟨d, l⟩ := H
  obtain ⟨d', l'⟩ := H'
  have hd : d' = d := hd
  subst hd
  have hm : SpMat.toMatrix (⟨d', l'⟩ : SpMat K) = - SpMat.toMatrix (⟨d', l⟩ : SpMat K) := by
    ext i j; exact he i j
  have : Module.End.eigenspace (Matrix.toLin' (SpMat.toMatrix (⟨d', l'⟩ : SpMat K))) (-μ) =
      Module.End.eigenspace (Matrix.toLin' (SpMat.toMatrix (⟨d', l⟩ : SpMat K))) μ := by
    ext x
    rw [Module.End.mem_eigenspace_iff, Module.End.mem_eigenspace_iff, hm, map_neg, LinearMap.neg_apply, neg_smul, neg_inj]
  rw [this]

/-- C104. The opposite of all the couplings except `t` gives the opposite energies, with the same multiplicities: the highest energy
of an antiferromagnet is the opposite of the lowest one of the ferromagnet with the same hopping. -/
theorem C104_opposite_energies {K : Type} [Field K] (E : Env) (c : Config) (nbh nbv nb : Nat) (hc : RectConf c nbh nbv nb) (hf : c.Full)
    (hn : c.nholes + c.nbeta ≤ c.nsites) (I : Interactions K) (B : BoolInteractions) (r : List Nat) (v : Bool)
    (dets : List (List Nat)) (hb : constructBasis c = .ok dets)
    (H H' : SpMat K) (hH : buildHamiltonian E c I dets B r v = .ok H)
    (hH' : buildHamiltonian E c ⟨I.t, -I.J, -I.Jhpar, -I.Jhper, -I.hSDpar, -I.hSDper, -I.tNNN, -I.tnNNN, -I.VNN, -I.VNNNper⟩ dets B r v = .ok H')
    (μ : K) :
    Module.finrank K (Module.End.eigenspace (Matrix.toLin' H'.toMatrix) (-μ)) =
      Module.finrank K (Module.End.eigenspace (Matrix.toLin' H.toMatrix) μ) := by
  obtain ⟨_, N, _, n2, n3⟩ := C35_linear E c I I dets B r v H hH (-1) 0
  have hdim : N.dim = H.dim := by
    obtain ⟨_, _, _, _, _, _, _, _, _, _, _, _, rfl, _⟩ := (buildHamiltonian_ok_iff E c I dets B r v H).1 hH
    obtain ⟨_, _, _, _, _, _, _, _, _, _, _, _, rfl, _⟩ := (buildHamiltonian_ok_iff E c _ dets B r v N).1 n2
    rfl
  rw [← finrank_opposite H N hdim (fun i j => by rw [n3, zero_mul, add_zero, neg_one_mul]) μ]
  have e : ({ lincomb (-1) 0 I I with t := - (lincomb (-1) 0 I I).t } : Interactions K) =
      ⟨I.t, -I.J, -I.Jhpar, -I.Jhper, -I.hSDpar, -I.hSDper, -I.tNNN, -I.tnNNN, -I.VNN, -I.VNNNper⟩ := by
    simp [lincomb]
  exact (C104_sign_of_t E c nbh nbv nb hc hf hn (lincomb (-1) 0 I I) B r v dets hb N H' n2 (by rw [e]; exact hH') (-μ)).symm

/-- C104. With the hopping alone the spectrum is symmetric about zero. -/
theorem C104_symmetric {K : Type} [Field K] (E : Env) (c : Config) (nbh nbv nb : Nat) (hc : RectConf c nbh nbv nb) (hf : c.Full)
    (hn : c.nholes + c.nbeta ≤ c.nsites) (I : Interactions K) (b : Bool) (r : List Nat) (v : Bool)
    (dets : List (List Nat)) (hb : constructBasis c = .ok dets)
    (H : SpMat K) (hH : buildHamiltonian E c I dets ⟨b, false, false, false, false, false⟩ r v = .ok H) (μ : K) :
    Module.finrank K (Module.End.eigenspace (Matrix.toLin' H.toMatrix) (-μ)) =
      Module.finrank K (Module.End.eigenspace (Matrix.toLin' H.toMatrix) μ) := by
  refine C104_opposite_energies E c nbh nbv nb hc hf hn I _ r v dets hb H H hH ?_ μ
  obtain ⟨l1, l2, l3, l4, l5, l6, e1, e2, e3, e4, e5, e6, rfl, hin⟩ := (buildHamiltonian_ok_iff E c I dets _ r v H).1 hH
  exact (buildHamiltonian_ok_iff E c _ dets _ r v _).2 ⟨l1, l2, l3, l4, l5, l6, e1, e2, e3, e4, e5, e6, rfl, hin⟩

/-- 2 x 2 lattice with one hole and one down spin: hopping only, and opposite exchange. -/
example : ∃ dets H H' H'', constructBasis (rectConf 2 2 1 1 1) = .ok dets ∧
    buildHamiltonian exEnv (rectConf 2 2 1 1 1) exI dets ⟨true, false, false, false, false, false⟩ = .ok H ∧ H.dim = 12 ∧
    (∀ μ : ℚ, Module.finrank ℚ (Module.End.eigenspace (Matrix.toLin' H.toMatrix) (-μ)) =
      Module.finrank ℚ (Module.End.eigenspace (Matrix.toLin' H.toMatrix) μ)) ∧
    buildHamiltonian exEnv (rectConf 2 2 1 1 1) exI dets ⟨true, true, true, true, true, true⟩ = .ok H' ∧
    buildHamiltonian exEnv (rectConf 2 2 1 1 1) ⟨exI.t, -exI.J, -exI.Jhpar, -exI.Jhper, -exI.hSDpar, -exI.hSDper, -exI.tNNN, -exI.tnNNN, -exI.VNN,
      -exI.VNNNper⟩ dets ⟨true, true, true, true, true, true⟩ = .ok H'' ∧
    ∀ μ : ℚ, Module.finrank ℚ (Module.End.eigenspace (Matrix.toLin' H''.toMatrix) (-μ)) =
      Module.finrank ℚ (Module.End.eigenspace (Matrix.toLin' H'.toMatrix) μ) := by
  have hc : RectConf (rectConf 2 2 1 1 1) 2 2 1 := rectConf_ok _ _ _ _ _ (by decide) (by decide) (by decide)
  have hf : Config.Full (rectConf 2 2 1 1 1) := by unfold Config.Full; decide
  obtain ⟨d, H, a1, a2, _, a3, _⟩ := C30_no_failure exEnv _ 2 2 1 hc hf (by decide) exI ⟨true, false, false, false, false, false⟩ [] false
  obtain ⟨d', H', b1, b2, _⟩ := C30_no_failure exEnv _ 2 2 1 hc hf (by decide) exI ⟨true, true, true, true, true, true⟩ [] false
  obtain ⟨d'', H'', c1, c2, _⟩ := C30_no_failure exEnv _ 2 2 1 hc hf (by decide) ⟨exI.t, -exI.J, -exI.Jhpar, -exI.Jhper, -exI.hSDpar, -exI.hSDper,
    -exI.tNNN, -exI.tnNNN, -exI.VNN, -exI.VNNNper⟩ ⟨true, true, true, true, true, true⟩ [] false
  obtain rfl := Except.ok.inj (a1.symm.trans b1)
  obtain rfl := Except.ok.inj (a1.symm.trans c1)
  refine ⟨d, H, H', H'', a1, a2, ?_, fun μ => C104_symmetric exEnv _ 2 2 1 hc hf (by decide) exI _ _ _ d a1 H a2 μ, b2, c2,
    fun μ => C104_opposite_energies exEnv _ 2 2 1 hc hf (by decide) exI _ _ _ d a1 H' H'' b2 c2 μ⟩
  have : (H.dim : Int) = 12 := a3.trans (by decide)
  omega

end TJ
