/-
Property C121: one hole moves like a free particle in a ferromagnetic lattice.
-/
import Verif.Lemmas.FreeHole
import Verif.Props.Ferromagnet
import Verif.Props.Initial

namespace TJ

open Finset Matrix

/-! ### The matrix -/

theorem near_plane (t : ℝ) (W i j : Nat) : (if Near (gridPos W i) (gridPos W j) then t else 0) =
    t * (pathEl (i % W) (j % W) * (if i / W = j / W then 1 else 0) + (if i % W = j % W then 1 else 0) * pathEl (i / W) (j / W)) := by
  have hN : Near (gridPos W i) (gridPos W j) ↔ (i % W = j % W ∧ (i / W + 1 = j / W ∨ j / W + 1 = i / W)) ∨
      (i / W = j / W ∧ (i % W + 1 = j % W ∨ j % W + 1 = i % W)) := by
    unfold Near gridPos
    simp only
    omega
  simp only [hN]
  unfold pathEl
  generalize i % W = x
  generalize j % W = x'
  generalize i / W = y
  generalize j / W = y'
  split_ifs <;> first | ring1 | (exfalso; omega)

theorem next_plane (t : ℝ) (W H n : Nat) (hW : 0 < W) (hn : n = W * H) (i j : Fin n) :
    (if i ≠ j ∧ ∃ m : Fin n, Near (gridPos W i) (gridPos W m) ∧ Near (gridPos W m) (gridPos W j) then
      (if (gridPos W i).1 = (gridPos W j).1 ∨ (gridPos W i).2 = (gridPos W j).2 then 0 else t) else 0) =
    t * (pathEl (i % W) (j % W) * pathEl (i / W) (j / W)) := by
  have hj := j.2
  have hi := i.2
  by_cases hd : (i.1 % W + 1 = j.1 % W ∨ j.1 % W + 1 = i.1 % W) ∧ (i.1 / W + 1 = j.1 / W ∨ j.1 / W + 1 = i.1 / W)
  · have hm : j.1 % W + W * (i.1 / W) < n := by
      have h1 := Nat.mod_lt j.1 hW
      have h2 : i.1 / W < H := Nat.div_lt_of_lt_mul (by omega)
      have : W * (i.1 / W + 1) ≤ W * H := Nat.mul_le_mul_left W h2
      rw [Nat.mul_add, Nat.mul_one] at this
      omega
    rw [if_pos]
    · rw [if_neg]
      · unfold pathEl
        rw [if_pos hd.1, if_pos hd.2]
        ring
      · unfold gridPos
        simp only
        omega
    · refine ⟨?_, ⟨_, hm⟩, ?_⟩
      · rintro rfl
        omega
      · unfold Near gridPos
        simp only
        rw [Nat.add_mul_mod_self_left, Nat.mod_eq_of_lt (Nat.mod_lt j.1 hW), Nat.add_mul_div_left _ _ hW,
          Nat.div_eq_of_lt (Nat.mod_lt j.1 hW), Nat.zero_add]
        omega
  · have hz : pathEl (i.1 % W) (j.1 % W) * pathEl (i.1 / W) (j.1 / W) = 0 := by
      unfold pathEl
      by_cases h1 : i.1 % W + 1 = j.1 % W ∨ j.1 % W + 1 = i.1 % W
      · rw [if_neg (fun h2 => hd ⟨h1, h2⟩), mul_zero]
      · rw [if_neg h1, zero_mul]
    rw [hz, mul_zero]
    split_ifs with h1 h2
    · rfl
    · exfalso
      obtain ⟨_, m, m1, m2⟩ := h1
      unfold Near gridPos at m1 m2
      unfold gridPos at h2
      simp only at m1 m2 h2
      omega
    · rfl

section
variable {c : Config} {nbh nbv nb : Nat}

theorem hole_dets (h1 : c.nholes = 1) (h2 : c.nbeta = 0) {dets : List (List Nat)} (hb : constructBasis c = .ok dets) :
    dets.length = c.nsites ∧ ∀ (i : Fin c.nsites) (hi : i.1 < dets.length), conf c dets[i.1] = holeAt i := by
  rw [constructBasis_eq, h1, h2, basisList_one] at hb
  obtain rfl := Except.ok.inj hb
  refine ⟨by simp, ?_⟩
  intro i hi
  funext s
  unfold conf holeAt occ
  rw [h1, h2]
  simp only [List.getElem_map, List.getElem_range, List.take_succ_cons, List.take_zero, List.mem_singleton, List.not_mem_nil, if_false]
  simp only [Fin.ext_iff]

/-- C121: with one hole among up spins, the basis vectors are the positions of the hole and the matrix of the Hamiltonian moves it
to neighbouring sites and around corners; spin couplings, singlet displacement and repulsion do not contribute. -/
theorem C121_matrix (E : Env) (hc : RectConf c nbh nbv nb) (hf : c.Full) (h1 : c.nholes = 1) (h2 : c.nbeta = 0)
    (I : Interactions ℝ) (B : BoolInteractions) (r : List Nat) (v : Bool) (dets : List (List Nat)) (hb : constructBasis c = .ok dets)
    (H : SpMat ℝ) (hH : buildHamiltonian E c I dets B r v = .ok H) :
    H.dim = c.nsites ∧ dets.length = c.nsites ∧
    ∀ i j : Fin c.nsites, occ 1 0 (dets.getD i []) i = .hole ∧
      H.entry i j = (if B.bt ∧ Near (gridPos (nbh * nb) i) (gridPos (nbh * nb) j) then I.t else 0) +
        (if B.btN ∧ i ≠ j ∧ ∃ m : Fin c.nsites, Near (gridPos (nbh * nb) i) (gridPos (nbh * nb) m) ∧ Near (gridPos (nbh * nb) m) (gridPos (nbh * nb) j)
          then (if (gridPos (nbh * nb) i).1 = (gridPos (nbh * nb) j).1 ∨ (gridPos (nbh * nb) i).2 = (gridPos (nbh * nb) j).2
            then I.tnNNN else I.tNNN) else 0) := by
  obtain ⟨hl, hd⟩ := hole_dets h1 h2 hb
  have hpos : 1 ≤ c.nsites := by
    rw [hc.spec.1]
    exact Nat.mul_pos (Nat.mul_pos hc.hh hc.hb) (Nat.mul_pos hc.hv hc.hb)
  have hn : c.nholes + c.nbeta ≤ c.nsites := by omega
  obtain ⟨H', e1, e2, _, _⟩ := buildHamiltonian_spec I (hc.tj E) hf hn hb B r v
  obtain rfl := Except.ok.inj (hH.symm.trans e1)
  refine ⟨by rw [e2, hl], hl, ?_⟩
  intro i j
  have hi : i.1 < dets.length := by rw [hl]; exact i.2
  have hj : j.1 < dets.length := by rw [hl]; exact j.2
  constructor
  · have := congrFun (hd i hi) i
    unfold conf holeAt at this
    rw [if_pos rfl, h1, h2] at this
    rw [List.getD_eq_getElem _ _ hi]
    exact this
  · rw [C31_matrix_elements E c nbh nbv nb hc hf hn I B r v dets hb H hH i j hi hj, hd i hi, hd j hj]
    unfold hamEl
    rw [hopEl_hole, staticEl_hole, flipEl_hole, sdEl_hole, nextEl_hole, repEl_hole]
    simp only [ite_self, add_zero, Bool.not_eq_true]
    congr 1
    · cases B.bt <;> simp
    · cases B.btN <;> simp

theorem hole_plane (E : Env) (hc : RectConf c nbh nbv nb) (hf : c.Full) (h1 : c.nholes = 1) (h2 : c.nbeta = 0)
    (I : Interactions ℝ) (B : BoolInteractions) (hN : B.btN = true → I.tnNNN = 0) (r : List Nat) (v : Bool) (dets : List (List Nat))
    (hb : constructBasis c = .ok dets) (H : SpMat ℝ) (hH : buildHamiltonian E c I dets B r v = .ok H) (i j : Nat)
    (hi : i < c.nsites) (hj : j < c.nsites) :
    H.entry i j = planeEl (if B.bt then I.t else 0) (if B.btN then I.tNNN else 0) (i % (nbh * nb)) (i / (nbh * nb)) (j % (nbh * nb)) (j / (nbh * nb)) := by
  have hW : 0 < nbh * nb := Nat.mul_pos hc.hh hc.hb
  have := ((C121_matrix E hc hf h1 h2 I B r v dets hb H hH).2.2 ⟨i, hi⟩ ⟨j, hj⟩).2
  rw [this]
  unfold planeEl
  congr 1
  · cases B.bt
    · simp
    · simp only [true_and, if_true]
      exact near_plane I.t (nbh * nb) i j
  · cases hB : B.btN
    · simp
    · simp only [true_and, if_true, hN hB]
      exact next_plane I.tNNN (nbh * nb) (nbv * nb) c.nsites hW hc.spec.1 ⟨i, hi⟩ ⟨j, hj⟩

end

/-! ### The energies -/

/-- Energy of a particle on a `W x H` rectangle with hopping amplitudes `a` to neighbours and `b` along diagonals, in the state of
wave numbers `p`, `q`. -/
noncomputable def freeEnergy (a b : ℝ) (W H p q : Nat) : ℝ :=
  2 * a * (Real.cos (Real.pi * p / (W + 1)) + Real.cos (Real.pi * q / (H + 1))) +
    4 * b * Real.cos (Real.pi * p / (W + 1)) * Real.cos (Real.pi * q / (H + 1))

theorem freeEnergy_eq (a b : ℝ) (W H p q : Nat) : freeEnergy a b W H (p + 1) (q + 1) =
    a * (2 * waveCos W p + 2 * waveCos H q) + b * (4 * waveCos W p * waveCos H q) := by
  unfold freeEnergy waveCos
  push_cast
  ring

section
variable {c : Config} {nbh nbv nb : Nat}

/-- C121: the energies of the matrix are exactly those of a free particle on the rectangle. -/
theorem C121_spectrum (E : Env) (hc : RectConf c nbh nbv nb) (hf : c.Full) (h1 : c.nholes = 1) (h2 : c.nbeta = 0)
    (I : Interactions ℝ) (B : BoolInteractions) (hN : B.btN = true → I.tnNNN = 0) (r : List Nat) (v : Bool) (dets : List (List Nat))
    (hb : constructBasis c = .ok dets) (H : SpMat ℝ) (hH : buildHamiltonian E c I dets B r v = .ok H) (μ : ℝ) :
    Module.End.HasEigenvalue (Matrix.toLin' H.toMatrix) μ ↔
      ∃ p q : Nat, 1 ≤ p ∧ p ≤ nbh * nb ∧ 1 ≤ q ∧ q ≤ nbv * nb ∧
        μ = freeEnergy (if B.bt then I.t else 0) (if B.btN then I.tNNN else 0) (nbh * nb) (nbv * nb) p q := by
  have hW : 0 < nbh * nb := Nat.mul_pos hc.hh hc.hb
  have hHt : 0 < nbv * nb := Nat.mul_pos hc.hv hc.hb
  have hns := hc.spec.1
  have hdim := (C121_matrix E hc hf h1 h2 I B r v dets hb H hH).1
  have hent := hole_plane E hc hf h1 h2 I B hN r v dets hb H hH
  have hsym : ∀ i j, H.entry i j = H.entry j i := fun i j =>
    C32_symmetric E c nbh nbv nb hc hf (by rw [h1, h2, hns]; exact Nat.mul_pos hW hHt) I B r v dets hb H hH i j
  generalize (if B.bt then I.t else 0) = a at *
  generalize (if B.btN then I.tNNN else 0) = b at *
  generalize nbh * nb = W at *
  generalize nbv * nb = Hh at *
  have hdim' : H.dim = W * Hh := by rw [hdim, hns]
  -- the matrix applied to a product of waves
  have happ : ∀ p q i, i < H.dim → ∑ j ∈ range H.dim, H.entry i j * (wave W p (j % W) * wave Hh q (j / W)) =
      freeEnergy a b W Hh (p + 1) (q + 1) * (wave W p (i % W) * wave Hh q (i / W)) := by
    intro p q i hi
    have e : ∀ j ∈ range H.dim, H.entry i j * (wave W p (j % W) * wave Hh q (j / W)) =
        planeEl a b (i % W) (i / W) (j % W) (j / W) * (wave W p (j % W) * wave Hh q (j / W)) := by
      intro j hj
      rw [hent i j (by omega) (by rw [mem_range] at hj; omega)]
    rw [Finset.sum_congr rfl e, hdim',
      sum_grid W Hh hW (fun x y => planeEl a b (i % W) (i / W) x y * (wave W p x * wave Hh q y)),
      plane_eigen a b W Hh p q _ _ (Nat.mod_lt i hW) (Nat.div_lt_of_lt_mul (by omega)), freeEnergy_eq]
  constructor
  · intro hμ
    obtain ⟨x, hx, hx0⟩ := hμ.exists_hasEigenvector
    rw [Module.End.mem_eigenspace_iff, Matrix.toLin'_apply] at hx
    by_contra hcon
    push Not at hcon
    apply hx0
    set u : Nat → ℝ := fun j => if h : j < H.dim then x ⟨j, h⟩ else 0 with hu
    have hux : ∀ i : Fin H.dim, u i = x i := fun i => by rw [hu]; simp
    have hz : ∀ j < H.dim, u j = 0 := by
      have key := plane_complete W Hh (fun x y => u (x + W * y)) (by
        intro p hp q hq
        have hne := hcon (p + 1) (q + 1) (by omega) (by omega) (by omega) (by omega)
        have e0 : ∑ x ∈ range W, ∑ y ∈ range Hh, u (x + W * y) * (wave W p x * wave Hh q y) =
            ∑ j ∈ range H.dim, u j * (wave W p (j % W) * wave Hh q (j / W)) := by
          rw [hdim', ← sum_grid W Hh hW (fun x y => u (x + W * y) * (wave W p x * wave Hh q y))]
          exact Finset.sum_congr rfl fun j _ => by rw [Nat.mod_add_div]
        rw [e0]
        have hμu : ∀ i ∈ range H.dim, μ * u i = ∑ j ∈ range H.dim, H.entry i j * u j := by
          intro i hi
          have := congrFun hx ⟨i, mem_range.1 hi⟩
          simp only [mulVec, dotProduct, Pi.smul_apply, smul_eq_mul] at this
          rw [Finset.sum_range, hux ⟨i, mem_range.1 hi⟩, ← this]
          exact Finset.sum_congr rfl fun j _ => by rw [hux j]; rfl
        have e1 : μ * ∑ j ∈ range H.dim, u j * (wave W p (j % W) * wave Hh q (j / W)) =
            freeEnergy a b W Hh (p + 1) (q + 1) * ∑ j ∈ range H.dim, u j * (wave W p (j % W) * wave Hh q (j / W)) := by
          calc μ * ∑ i ∈ range H.dim, u i * (wave W p (i % W) * wave Hh q (i / W))
              = ∑ i ∈ range H.dim, ∑ j ∈ range H.dim, H.entry i j * u j * (wave W p (i % W) * wave Hh q (i / W)) := by
                rw [Finset.mul_sum]
                refine Finset.sum_congr rfl fun i hi => ?_
                rw [← mul_assoc, hμu i hi, Finset.sum_mul]
            _ = ∑ j ∈ range H.dim, u j * ∑ i ∈ range H.dim, H.entry j i * (wave W p (i % W) * wave Hh q (i / W)) := by
                rw [Finset.sum_comm]
                refine Finset.sum_congr rfl fun j _ => ?_
                rw [Finset.mul_sum]
                exact Finset.sum_congr rfl fun i _ => by rw [hsym j i]; ring
            _ = _ := by
                rw [Finset.mul_sum]
                refine Finset.sum_congr rfl fun j hj => ?_
                rw [happ p q j (mem_range.1 hj)]
                ring
        have e2 : (μ - freeEnergy a b W Hh (p + 1) (q + 1)) * ∑ j ∈ range H.dim, u j * (wave W p (j % W) * wave Hh q (j / W)) = 0 := by
          rw [sub_mul, e1, sub_self]
        exact (mul_eq_zero.1 e2).resolve_left (sub_ne_zero.2 hne))
      intro j hj
      have := key (j % W) (Nat.mod_lt j hW) (j / W) (Nat.div_lt_of_lt_mul (by omega))
      simp only [Nat.mod_add_div] at this
      exact this
    funext i
    rw [← hux i, hz i i.2]
    rfl
  · rintro ⟨p, q, p1, p2, q1, q2, rfl⟩
    obtain ⟨p, rfl⟩ := Nat.exists_eq_add_of_le' p1
    obtain ⟨q, rfl⟩ := Nat.exists_eq_add_of_le' q1
    have hpos : 0 < H.dim := by rw [hdim']; exact Nat.mul_pos hW hHt
    refine Module.End.hasEigenvalue_of_hasEigenvector (x := fun i : Fin H.dim => wave W p (i % W) * wave Hh q (i / W)) ⟨?_, ?_⟩
    · rw [Module.End.mem_eigenspace_iff, Matrix.toLin'_apply]
      funext i
      have := happ p q i i.2
      rw [Finset.sum_range] at this
      simp only [mulVec, dotProduct, Pi.smul_apply, smul_eq_mul]
      exact this
    · intro h0
      have := congrFun h0 ⟨0, hpos⟩
      simp only [Nat.zero_mod, Nat.zero_div, Pi.zero_apply] at this
      exact absurd this (ne_of_gt (mul_pos (wave_pos W p (by omega)) (wave_pos Hh q (by omega))))

theorem waveCos_last {W : Nat} (hW : 0 < W) : waveCos W (W - 1) = - waveCos W 0 := by
  have h : ((W : ℝ) + 1) ≠ 0 := by positivity
  unfold waveCos
  rw [← Real.cos_pi_sub]
  congr 1
  have : ((W - 1 : Nat) : ℝ) = (W : ℝ) - 1 := by rw [Nat.cast_sub hW]; simp
  rw [this]
  field_simp
  push_cast
  ring

theorem waveCos_abs {W p : Nat} (hp : p < W) : |waveCos W p| ≤ waveCos W 0 := by
  rw [abs_le]
  constructor
  · rw [← waveCos_last (by omega)]
    rcases Nat.lt_or_ge p (W - 1) with h | h
    · exact (waveCos_lt (by omega) h).le
    · rw [show p = W - 1 by omega]
  · rcases Nat.eq_zero_or_pos p with h | h
    · rw [h]
    · exact (waveCos_lt hp h).le

theorem free_least (a : ℝ) {W H : Nat} (hW : 0 < W) (hH : 0 < H) :
    IsLeast {μ | ∃ p q : Nat, 1 ≤ p ∧ p ≤ W ∧ 1 ≤ q ∧ q ≤ H ∧ μ = freeEnergy a 0 W H p q}
      (-(2 * |a| * (Real.cos (Real.pi / (W + 1)) + Real.cos (Real.pi / (H + 1))))) := by
  have e : ∀ W : Nat, Real.cos (Real.pi / (W + 1)) = waveCos W 0 := by
    intro W
    unfold waveCos
    simp
  rw [e, e]
  constructor
  · rcases le_total a 0 with ha | ha
    · refine ⟨1, 1, le_rfl, hW, le_rfl, hH, ?_⟩
      have := freeEnergy_eq a 0 W H 0 0
      rw [Nat.zero_add] at this
      rw [this, abs_of_nonpos ha]
      ring
    · refine ⟨W, H, hW, le_rfl, hH, le_rfl, ?_⟩
      have h1 : W = (W - 1) + 1 := by omega
      have h2 : H = (H - 1) + 1 := by omega
      have := freeEnergy_eq a 0 W H (W - 1) (H - 1)
      rw [← h1, ← h2] at this
      rw [this, waveCos_last hW, waveCos_last hH, abs_of_nonneg ha]
      ring
  · rintro μ ⟨p, q, p1, p2, q1, q2, rfl⟩
    obtain ⟨p, rfl⟩ := Nat.exists_eq_add_of_le' p1
    obtain ⟨q, rfl⟩ := Nat.exists_eq_add_of_le' q1
    rw [freeEnergy_eq]
    have b1 := waveCos_abs (W := W) (p := p) (by omega)
    have b2 := waveCos_abs (W := H) (p := q) (by omega)
    have b3 : |a * (waveCos W p + waveCos H q)| ≤ |a| * (waveCos W 0 + waveCos H 0) := by
      rw [abs_mul]
      exact mul_le_mul_of_nonneg_left (le_trans (abs_add_le _ _) (add_le_add b1 b2)) (abs_nonneg a)
    have b4 := (abs_le.1 b3).1
    linarith

/-- C121: without hopping by two bonds the lowest energy is `-2 |t| (cos (π / (W + 1)) + cos (π / (H + 1)))`. -/
theorem C121_lowest (E : Env) (hc : RectConf c nbh nbv nb) (hf : c.Full) (h1 : c.nholes = 1) (h2 : c.nbeta = 0)
    (I : Interactions ℝ) (B : BoolInteractions) (hN : B.btN = true → I.tNNN = 0 ∧ I.tnNNN = 0) (r : List Nat) (v : Bool)
    (dets : List (List Nat)) (hb : constructBasis c = .ok dets) (H : SpMat ℝ) (hH : buildHamiltonian E c I dets B r v = .ok H) :
    IsLeast {μ | Module.End.HasEigenvalue (Matrix.toLin' H.toMatrix) μ}
      (-(2 * |if B.bt then I.t else 0| * (Real.cos (Real.pi / ((nbh * nb : Nat) + 1)) + Real.cos (Real.pi / ((nbv * nb : Nat) + 1))))) := by
  have h0 : (if B.btN then I.tNNN else 0) = 0 := by
    cases hB : B.btN
    · simp
    · simp [(hN hB).1]
  have := free_least (if B.bt then I.t else 0) (Nat.mul_pos hc.hh hc.hb) (Nat.mul_pos hc.hv hc.hb)
  convert this using 1
  ext μ
  have hs := C121_spectrum E hc hf h1 h2 I B (fun h => (hN h).2) r v dets hb H hH μ
  rw [h0] at hs
  exact hs

/-- C121, with down spins: when the spin couplings are not antiferromagnetic, one hole has this lowest energy in every spin sector. -/
theorem C121_all_sectors (E : Env) (hc : RectConf c nbh nbv nb) (hf : c.Full) (h1 : c.nholes = 1) (h2 : 1 + c.nbeta ≤ c.nsites)
    (I : Interactions ℝ) (B : BoolInteractions) (hB : B.bz = B.bij) (hJ : B.bz = true → I.J ≤ 0 ∧ I.Jhpar ≤ 0 ∧ I.Jhper ≤ 0)
    (hS : B.bSD = true → I.hSDpar = 0 ∧ I.hSDper = 0) (hN : B.btN = true → I.tNNN = 0 ∧ I.tnNNN = 0)
    (dets : List (List Nat)) (hb : constructBasis c = .ok dets) (H : SpMat ℝ) (hH : buildHamiltonian E c I dets B = .ok H) :
    IsLeast {μ | Module.End.HasEigenvalue (Matrix.toLin' H.toMatrix) μ}
      (-(2 * |if B.bt then I.t else 0| * (Real.cos (Real.pi / ((nbh * nb : Nat) + 1)) + Real.cos (Real.pi / ((nbv * nb : Nat) + 1))))) := by
  obtain ⟨d, G, a1, a2, _⟩ := C30_no_failure E { c with nbeta := 0 } nbh nbv nb (hc.with_nbeta 0) hf
    (show c.nholes + 0 ≤ c.nsites by omega) I B [] false
  refine (C105_same_lowest_energy E c nbh nbv nb hc hf (by omega) 0 (by omega) I B hB hJ hS
    (fun h => ⟨(hN h).1.le, (hN h).2.le⟩) dets d hb a1 H G hH a2 _).2 ?_
  exact C121_lowest (c := { c with nbeta := 0 }) E (hc.with_nbeta 0) hf h1 rfl I B hN [] false d a1 G a2

/-- C121 for the energies that `perform_initial_computations` returns after convergence: each is the energy of a free particle up to
the tolerance. -/
theorem C121_run (E : Env) (L : LinAlg ℝ) (hL : L.ExactSqrt) (he : L.ExactEigh) (hq : L.ExactQr) (swap : List ℝ → Bool)
    (D : Data ℝ) (hc : RectConf D.config nbh nbv nb) (hf : D.config.Full) (h1 : D.config.nholes = 1) (h2 : D.config.nbeta = 0)
    (hN : D.bools.btN = true → D.interactions.tnNNN = 0) (r : InitialResult) (h : performInitial E L swap D = .ok r)
    (hcv : r.eig.converged = true) (hm : 1 < D.diag.count r.determinants.length ∨ 2 ≤ r.eig.trace.length) :
    ∀ lam ∈ r.eig.eigvals, ∃ p q : Nat, 1 ≤ p ∧ p ≤ nbh * nb ∧ 1 ≤ q ∧ q ≤ nbv * nb ∧
      |freeEnergy (if D.bools.bt then D.interactions.t else 0) (if D.bools.btN then D.interactions.tNNN else 0)
        (nbh * nb) (nbv * nb) p q - lam| ≤ D.diag.tol := by
  obtain ⟨hb, hH, ⟨guess, hd, _⟩, _⟩ := performInitial_ok h
  obtain ⟨m1, m2, _⟩ := C121_matrix E hc hf h1 h2 D.interactions D.bools [] true r.determinants hb r.ham hH
  have hdim : r.ham.dim = r.determinants.length := by rw [m1, m2]
  have hn : D.config.nholes + D.config.nbeta ≤ D.config.nsites := by
    rw [h1, h2, hc.spec.1]
    exact Nat.mul_pos (Nat.mul_pos hc.hh hc.hb) (Nat.mul_pos hc.hv hc.hb)
  have hsym : r.ham.toMatrix.IsSymm := by
    ext i j
    exact C32_symmetric E D.config nbh nbv nb hc hf hn D.interactions D.bools [] true r.determinants hb r.ham hH j i
  intro lam hl
  obtain ⟨mu, x, x0, x1, x2⟩ := C68_near_eigenvalue L hL he hq r.ham.toMatrix hsym D.diag.nbVal guess D.diag.stp D.diag.tol
    D.diag.dimMax r.eig hd hcv (by
      rcases hm with hm | hm
      · left; rw [hdim]; exact hm
      · right; right; exact hm) lam hl
  have hev : Module.End.HasEigenvalue (Matrix.toLin' r.ham.toMatrix) mu :=
    Module.End.hasEigenvalue_of_hasEigenvector (x := x) ⟨by rw [Module.End.mem_eigenspace_iff, Matrix.toLin'_apply]; exact x1, x0⟩
  obtain ⟨p, q, p1, p2, q1, q2, rfl⟩ :=
    (C121_spectrum E hc hf h1 h2 D.interactions D.bools hN [] true r.determinants hb r.ham hH mu).1 hev
  exact ⟨p, q, p1, p2, q1, q2, x2⟩

end

/-! ### Cases that meet the hypotheses -/

/-- Couplings with hopping around corners. -/
noncomputable def holeI : Interactions ℝ := ⟨3, 2, 5, 7, 11, 13, 1, 0, 17, 19⟩

/-- 3 x 2 lattice, all terms switched on: `2 · 3 (cos (π/4) + cos (π/3)) + 4 cos (π/4) cos (π/3)` is an energy. -/
example : ∃ dets H, constructBasis (rectConf 3 2 1 1 0) = .ok dets ∧
    buildHamiltonian exEnv (rectConf 3 2 1 1 0) holeI dets ⟨true, true, true, true, true, true⟩ = .ok H ∧ H.dim = 6 ∧
    Module.End.HasEigenvalue (Matrix.toLin' H.toMatrix) (4 * Real.sqrt 2 + 3) := by
  have hc : RectConf (rectConf 3 2 1 1 0) 3 2 1 := rectConf_ok _ _ _ _ _ (by decide) (by decide) (by decide)
  have hf : Config.Full (rectConf 3 2 1 1 0) := by unfold Config.Full; decide +kernel
  obtain ⟨d, H, a1, a2, a3, _⟩ := C30_no_failure exEnv _ 3 2 1 hc hf (by decide +kernel) holeI ⟨true, true, true, true, true, true⟩ [] false
  refine ⟨d, H, a1, a2, ?_, ?_⟩
  · exact (C121_matrix exEnv hc hf rfl rfl holeI _ [] false d a1 H a2).1
  · refine (C121_spectrum exEnv hc hf rfl rfl holeI _ (fun _ => rfl) [] false d a1 H a2 _).2 ⟨1, 1, by decide, by decide, by decide, by decide, ?_⟩
    unfold freeEnergy holeI
    have e1 : Real.cos (Real.pi * ((1 : Nat) : ℝ) / (((3 * 1 : Nat) : ℝ) + 1)) = Real.sqrt 2 / 2 := by
      rw [← Real.cos_pi_div_four]; congr 1; push_cast; ring
    have e2 : Real.cos (Real.pi * ((1 : Nat) : ℝ) / (((2 * 1 : Nat) : ℝ) + 1)) = 1 / 2 := by
      rw [← Real.cos_pi_div_three]; congr 1; push_cast; ring
    rw [e1, e2]
    simp only [if_true]
    ring

/-- 3 x 3 lattice with one hole, four down spins and four up spins, ferromagnetic couplings, `t = 1`: the lowest energy is `-2 √2`. -/
example : ∃ dets H, constructBasis (rectConf 3 3 1 1 4) = .ok dets ∧
    buildHamiltonian exEnv (rectConf 3 3 1 1 4) ⟨1, -1, -1, -2, 0, 0, 0, 0, 1, 2⟩ dets ⟨true, true, true, true, true, true⟩ = .ok H ∧
    IsLeast {μ | Module.End.HasEigenvalue (Matrix.toLin' H.toMatrix) μ} (-(2 * Real.sqrt 2)) := by
  have hc : RectConf (rectConf 3 3 1 1 4) 3 3 1 := rectConf_ok _ _ _ _ _ (by decide) (by decide) (by decide)
  have hf : Config.Full (rectConf 3 3 1 1 4) := by unfold Config.Full; decide +kernel
  obtain ⟨d, H, a1, a2, _⟩ := C30_no_failure (K := ℝ) exEnv _ 3 3 1 hc hf (by decide +kernel) ⟨1, -1, -1, -2, 0, 0, 0, 0, 1, 2⟩
    ⟨true, true, true, true, true, true⟩ [] false
  refine ⟨d, H, a1, a2, ?_⟩
  have := C121_all_sectors exEnv hc hf rfl (by decide +kernel) ⟨1, -1, -1, -2, 0, 0, 0, 0, 1, 2⟩ ⟨true, true, true, true, true, true⟩ rfl
    (fun _ => by norm_num) (fun _ => by norm_num) (fun _ => by norm_num) d a1 H a2
  have e1 : Real.cos (Real.pi / (((3 * 1 : Nat) : ℝ) + 1)) = Real.sqrt 2 / 2 := by
    rw [← Real.cos_pi_div_four]; congr 1; push_cast; ring
  rw [e1] at this
  simp only [if_true, abs_one] at this
  convert this using 1
  ring

/-- One hole and one up spin on two sites: both energies. -/
noncomputable def freeCase : Data ℝ :=
  ⟨rectConf 2 1 1 1 0, ⟨-1, 2, 3, 4, 5, 6, 7, 0, 9, 10⟩, ⟨2, 1, 0, 4, none⟩, ⟨true, true, true, true, true, true⟩, false⟩

example : ∃ r, performInitial exEnv realLib (fun _ => false) freeCase = .ok r ∧ r.eig.eigvals.length = 2 ∧
    ∀ lam ∈ r.eig.eigvals, lam = -1 ∨ lam = 1 := by
  have hc : RectConf freeCase.config 2 1 1 := rectConf_ok 2 1 1 1 0 (by omega) (by omega) (by omega)
  have hb : constructBasis freeCase.config = .ok [[0, 1], [1, 0]] := by decide +kernel
  have hf : freeCase.config.Full := by unfold Config.Full; decide +kernel
  have hn : freeCase.config.nholes + freeCase.config.nbeta ≤ freeCase.config.nsites := by decide +kernel
  obtain ⟨r, h1, h2, h3, h4, h5, h6⟩ := C80_no_failure exEnv realLib realLib_qr realLib_rand (fun _ => false) freeCase 2 1 1
    hc hf hn (fun h => by cases h) _ hb (by decide +kernel) (by decide +kernel) (by intro rows h; cases h)
  have hd : r.ham.dim = 2 := h3
  obtain ⟨hb', hH, ⟨guess, hm, hg⟩, _⟩ := performInitial_ok h1
  obtain rfl := hg.2 rfl
  have hsym : r.ham.toMatrix.IsSymm := by
    ext i j
    exact C32_symmetric exEnv freeCase.config 2 1 1 hc hf hn freeCase.interactions freeCase.bools [] true
      r.determinants hb' r.ham hH j i
  obtain ⟨r', q1, q2⟩ := C69_converges realLib realLib_sqrt realLib_eigh realLib_qr realLib_rand r.ham.toMatrix hsym 2 1 0 le_rfl 4
    (by omega) (by omega) (by omega) (by omega)
  obtain rfl := Except.ok.inj (hm.symm.trans q1)
  have hcount : 1 < freeCase.diag.count r.determinants.length := by rw [h2]; decide +kernel
  refine ⟨r, h1, h4, ?_⟩
  intro lam hl
  obtain ⟨p, q, p1, p2, q1, q2, hle⟩ := C121_run exEnv realLib realLib_sqrt realLib_eigh realLib_qr (fun _ => false) freeCase hc hf rfl rfl
    (fun _ => rfl) r h1 q2 (Or.inl hcount) lam hl
  have hz := abs_nonpos_iff.1 hle
  have hq : q = 1 := by omega
  subst hq
  have c2 : Real.cos (Real.pi * ((1 : Nat) : ℝ) / (((1 * 1 : Nat) : ℝ) + 1)) = 0 := by
    rw [← Real.cos_pi_div_two]; congr 1; push_cast; ring
  unfold freeEnergy at hz
  rw [c2] at hz
  have hp : p = 1 ∨ p = 2 := by omega
  rcases hp with rfl | rfl
  · left
    have c1 : Real.cos (Real.pi * ((1 : Nat) : ℝ) / (((2 * 1 : Nat) : ℝ) + 1)) = 1 / 2 := by
      rw [← Real.cos_pi_div_three]; congr 1; push_cast; ring
    rw [c1] at hz
    simp only [freeCase, if_true] at hz
    linarith
  · right
    have c1 : Real.cos (Real.pi * ((2 : Nat) : ℝ) / (((2 * 1 : Nat) : ℝ) + 1)) = -(1 / 2) := by
      rw [← Real.cos_pi_div_three, ← Real.cos_pi_sub]; congr 1; push_cast; ring
    rw [c1] at hz
    simp only [freeCase, if_true] at hz
    linarith

end TJ
