/-
Properties C85 and C86: `compute_spin_and_multiplicity` and `save_phase_space`.
-/
import Verif.Model.Phase
import Verif.Props.Spin
import Verif.Props.Hamiltonian
import Verif.Lemmas.Davidson
import Verif.Props.Initial

namespace TJ

section
variable {K : Type} [Field K] [LinearOrder K] [IsStrictOrderedRing K]

theorem vdot_self_ne_zero (v : List K) : vdot v v ≠ 0 ↔ ∃ x ∈ v, x ≠ 0 := by
  have h0 : ∀ v : List K, 0 ≤ vdot v v := by
    intro v
    induction v with
    | nil => simp [vdot]
    | cons a v ih =>
      have : vdot (a :: v) (a :: v) = a * a + vdot v v := by simp [vdot]
      rw [this]
      nlinarith [mul_self_nonneg a]
  induction v with
  | nil => simp [vdot]
  | cons a v ih =>
    have e : vdot (a :: v) (a :: v) = a * a + vdot v v := by simp [vdot]
    rw [e]
    constructor
    · intro h
      by_contra k
      push Not at k
      have ha : a = 0 := k a (by simp)
      have hv : vdot v v = 0 := by
        by_contra n
        obtain ⟨x, hx, hx0⟩ := ih.1 n
        exact hx0 (k x (by simp [hx]))
      rw [ha, hv] at h
      simp at h
    · rintro ⟨x, hx, hx0⟩ h
      have h1 := mul_self_nonneg a
      have h2 := h0 v
      have ha : a * a = 0 := by linarith
      have hv : vdot v v = 0 := by linarith
      rcases List.mem_cons.1 hx with rfl | hx
      · exact hx0 (mul_self_eq_zero.1 ha)
      · exact ih.2 ⟨x, hx, hx0⟩ hv

/-- C85 fails for every basis: the function raises `AttributeError` as soon as one vector is not zero.
(Eigenvectors never are.) -/
theorem C85_always_fails (S : SetSem) (c : Config) (dets : List (List Nat)) (eigvects : List (List K)) (v : List K) (hv : v ∈ eigvects)
    (hx : ∃ x ∈ v, x ≠ 0) : computeSpinAndMultiplicity S (.basis c dets) eigvects = .error .attributeError := by
  have : eigvects.mapM (s2ExpValObj S (.basis c dets)) = .error .attributeError := by
    refine mapM_error ?_ ⟨v, hv, ?_⟩
    · intro w _
      by_cases h : vdot w w ≠ 0
      · right
        unfold s2ExpValObj
        rw [if_pos h]
        rfl
      · left
        refine ⟨0, ?_⟩
        unfold s2ExpValObj
        rw [if_neg h]
    · unfold s2ExpValObj
      rw [if_pos ((vdot_self_ne_zero v).2 hx)]
      rfl
  unfold computeSpinAndMultiplicity
  rw [this]
  rfl

/-- C85, part: given a configuration in place of the basis, the function returns the expectation values
of the square of the spin, one for each vector. -/
theorem C85_values_partial (S : SetSem) (c : Config) (eigvects : List (List K)) (x : List K → K)
    (hx : ∀ v ∈ eigvects, computeS2ExpVal S c v = .ok (x v)) :
    ∃ names, computeSpinAndMultiplicity S (.config c) eigvects = .ok (eigvects.map x, names) ∧ names.length = eigvects.length := by
  have : eigvects.mapM (s2ExpValObj S (.config c)) = .ok (eigvects.map x) := by
    refine mapM_ok (fun v hv => ?_)
    unfold s2ExpValObj
    by_cases h : vdot v v ≠ 0
    · rw [if_pos h]
      exact hx v hv
    · rw [if_neg h]
      have := hx v hv
      unfold computeS2ExpVal at this
      rw [if_neg h] at this
      exact this
  exact ⟨_, bind_ok this rfl, by simp⟩

/-- The name for the spin `k / 2`. -/
def multName (k : Nat) : String := ["singlet", "doublet", "triplet", "quartet", "quintet"].getD k "multiplet"

/-- C85, names: even so, a state of spin `k / 2` gets its own name only if `k = 0` or `k ≥ 5`, because the name is
looked up with `s (s + 1)` in place of `s`. -/
theorem C85_names (S : SetSem) (c : Config) (v : List K) (k : Nat)
    (hx : computeS2ExpVal S c v = .ok ((k : K) / 2 * ((k : K) / 2 + 1))) :
    ∃ spin name, computeSpinAndMultiplicity S (.config c) [v] = .ok ([spin], [name]) ∧ (name = some (multName k) ↔ k = 0 ∨ 5 ≤ k) := by
  have hs : s2ExpValObj S (.config c) v = .ok ((k : K) / 2 * ((k : K) / 2 + 1)) := by
    unfold s2ExpValObj
    by_cases h : vdot v v ≠ 0
    · rw [if_pos h]; exact hx
    · rw [if_neg h]
      unfold computeS2ExpVal at hx
      rw [if_neg h] at hx
      exact hx
  refine ⟨_, _, bind_ok (a := [(k : K) / 2 * ((k : K) / 2 + 1)]) ?_ rfl, ?_⟩
  · rw [List.mapM_cons, hs]
    rfl
  · have hm : 2 * ((k : K) / 2 * ((k : K) / 2 + 1)) + 1 = (k : K) * (k + 2) / 2 + 1 := by ring
    unfold computeSpinMultiplicity multName
    simp only [hm]
    have hcases : k = 0 ∨ k = 1 ∨ k = 2 ∨ k = 3 ∨ k = 4 ∨ 5 ≤ k := by omega
    rcases hcases with rfl | rfl | rfl | rfl | rfl | h
    · norm_num
    · norm_num <;> decide
    · norm_num <;> decide
    · norm_num <;> decide
    · norm_num <;> decide
    · have hk : (5 : K) ≤ k := by exact_mod_cast h
      have hbig : (5 : K) < (k : K) * (k + 2) / 2 + 1 := by nlinarith
      rw [if_neg (by linarith), if_neg (by linarith), if_neg (by linarith), if_neg (by linarith), if_neg (by linarith), if_pos hbig]
      obtain ⟨m, rfl⟩ : ∃ m, k = m + 5 := ⟨k - 5, by omega⟩
      simp

end

example : computeSpinAndMultiplicity SetSem.sorted (.basis (rectConf 2 1 1 0 1) [[0, 1], [1, 0]]) [[(1 : ℚ), 1]] = .error .attributeError :=
  C85_always_fails _ _ _ _ [1, 1] (by simp) ⟨1, by simp, by norm_num⟩

/-- The triplet of two electrons is called a quintet. -/
example : computeS2ExpVal SetSem.sorted (rectConf 2 1 1 0 1) [(1 : ℚ), 1] = .ok 2 ∧
    computeSpinAndMultiplicity SetSem.sorted (.config (rectConf 2 1 1 0 1)) [[(1 : ℚ), 1]] = .ok ([2], [some "quintet"]) := by
  decide +kernel

/-! ### C86 -/

section
variable {K : Type} [Field K]

/-- The configurations of the sweep are those of the lattice with another number of down spins. -/
theorem sector_props {c : Config} {nbh nbv nb : Nat} (hc : RectConf c nbh nbv nb) (hf : c.Full) (nbeta : Nat) :
    RectConf { c with nbeta := nbeta } nbh nbv nb ∧ Config.Full { c with nbeta := nbeta } :=
  ⟨⟨hc.hh, hc.hv, hc.hb, hc.ltype, hc.bond⟩, hf⟩

theorem phaseSector_eq (E : Env) (c : Config) {nbh nbv nb : Nat} (hc : RectConf c nbh nbv nb) (hf : c.Full) (hn : c.nholes + c.nbeta ≤ c.nsites)
    (I : Interactions K) (b : BoolInteractions) (nbState nbT nbV : Nat) :
    phaseSector E c I b nbState nbT nbV =
      if 1 < min nbState (computeDimension c.nsites c.nalpha c.nbeta) then .ok (List.replicate nbT (List.replicate nbT (0, 0)))
      else if nbT = 0 then .ok [] else .error .typeError := by
  have hp : ∀ dets, constructBasis c = .ok dets → ∀ iX iY, phasePoint E c I b dets nbState iX iY =
      if 1 < min nbState (computeDimension c.nsites c.nalpha c.nbeta) then .ok (0, 0) else .error .typeError := by
    intro dets hd iX iY
    obtain ⟨dets', H, h1, h2, h3, h4, _⟩ := C30_no_failure E c nbh nbv nb hc hf hn (phaseCouplings I iX iY) b [] false
    rw [hd] at h1
    obtain rfl := Except.ok.inj h1
    unfold phasePoint
    rw [h2]
    show (match davidsonShifted H.dim nbState with
      | .linAlgError => (Except.ok (0, 0) : Py (K × K))
      | .typeError => Except.error .typeError) = _
    unfold davidsonShifted
    have : H.dim = computeDimension c.nsites c.nalpha c.nbeta := by exact_mod_cast h4
    rw [this]
    by_cases h : 1 < min nbState (computeDimension c.nsites c.nalpha c.nbeta)
    · rw [if_pos h, if_pos h]
    · rw [if_neg h, if_neg h]
  have hd := constructBasis_eq c
  unfold phaseSector
  rw [hd]
  change (List.range nbT).mapM (fun iX => (List.range nbT).mapM (fun iY => phasePoint E c I b _ nbState iX iY)) = _
  by_cases h : 1 < min nbState (computeDimension c.nsites c.nalpha c.nbeta)
  · rw [if_pos h]
    have inner : ∀ iX, (List.range nbT).mapM (fun iY => phasePoint E c I b (basisList c.nsites c.nholes c.nbeta) nbState iX iY) = .ok (List.replicate nbT ((0 : K), (0 : K))) := by
      intro iX
      rw [mapM_ok (g := fun _ => ((0 : K), (0 : K))) (fun iY _ => by rw [hp _ hd, if_pos h])]
      congr 1
      exact List.ext_getElem (by simp) (by simp)
    rw [mapM_ok (g := fun _ => List.replicate nbT ((0 : K), (0 : K))) (fun iX _ => inner iX)]
    congr 1
    exact List.ext_getElem (by simp) (by simp)
  · rw [if_neg h]
    by_cases hT : nbT = 0
    · rw [if_pos hT, hT]
      rfl
    · rw [if_neg hT]
      obtain ⟨m, rfl⟩ : ∃ m, nbT = m + 1 := ⟨nbT - 1, by omega⟩
      rw [List.range_succ_eq_map, List.mapM_cons, List.mapM_cons, hp _ hd, if_neg h]
      rfl

/-- C86 fails: whenever `save_phase_space` draws something, all energies and all spins drawn are zero, in every sector
and for all couplings. -/
theorem C86_all_zero (E : Env) (c : Config) (nbh nbv nb : Nat) (hc : RectConf c nbh nbv nb) (hf : c.Full)
    (I : Interactions K) (b : BoolInteractions) (nbState nbT nbV : Nat) (Z : List (List (List (K × K))))
    (h : savePhaseSpace E c I b nbState nbT nbV = .ok Z) :
    ∀ sector ∈ Z, ∀ column ∈ sector, ∀ z ∈ column, z = (0, 0) := by
  intro sector hs
  obtain ⟨m1, m2⟩ := mapM_results h
  obtain ⟨k, hk, rfl⟩ := List.getElem_of_mem hs
  have hk' : k < c.nsites + 1 - c.nholes := by simpa [m1] using hk
  obtain ⟨y, y1, h1⟩ := m2 k (by simpa using hk')
  rw [List.getElem?_eq_getElem hk] at y1
  obtain rfl := Option.some.inj y1
  rw [List.getElem_range] at h1
  have hn : c.nholes + (c.nsites - c.nholes - k) ≤ c.nsites := by omega
  obtain ⟨p1, p2⟩ := sector_props hc hf (c.nsites - c.nholes - k)
  rw [phaseSector_eq E _ p1 p2 hn] at h1
  split_ifs at h1
  · rw [← Except.ok.inj h1]
    intro col hcol z hz
    rw [List.eq_of_mem_replicate hcol] at hz
    exact List.eq_of_mem_replicate hz
  · rw [← Except.ok.inj h1]
    simp

/-- C86. This is what happens with at least one hole and one electron for the states number 2 and above: one picture for each
sector, with `nb_t` times `nb_t` points, all zero. -/
theorem C86_draws_zero (E : Env) (c : Config) (nbh nbv nb : Nat) (hc : RectConf c nbh nbv nb) (hf : c.Full)
    (h1 : 1 ≤ c.nholes) (h2 : c.nholes < c.nsites) (I : Interactions K) (b : BoolInteractions) (nbState nbT nbV : Nat) (hs : 2 ≤ nbState) :
    savePhaseSpace E c I b nbState nbT nbV =
      .ok (List.replicate (c.nsites - c.nholes + 1) (List.replicate nbT (List.replicate nbT (0, 0)))) := by
  unfold savePhaseSpace
  rw [mapM_ok (g := fun _ => List.replicate nbT (List.replicate nbT ((0 : K), (0 : K))))]
  · congr 1
    refine List.ext_getElem (by simp; omega) (by simp)
  · intro a ha
    have ha := List.mem_range.1 ha
    obtain ⟨p1, p2⟩ := sector_props hc hf (c.nsites - c.nholes - a)
    rw [phaseSector_eq E _ p1 p2 (show c.nholes + (c.nsites - c.nholes - a) ≤ c.nsites by omega)]
    refine if_pos ?_
    have e : computeDimension c.nsites ((c.nsites : Int) - c.nholes - (c.nsites - c.nholes - a : Nat)) (c.nsites - c.nholes - a : Nat) =
        c.nsites.choose c.nholes * (c.nsites - c.nholes).choose a := by
      unfold computeDimension
      simp only
      rw [show (c.nsites : Int) - ((c.nsites : Int) - c.nholes - (c.nsites - c.nholes - a : Nat)) - (c.nsites - c.nholes - a : Nat) = (c.nholes : Int) by omega,
        show (c.nsites : Int) - c.nholes - (c.nsites - c.nholes - a : Nat) = (a : Int) by omega,
        show (c.nsites : Int) - c.nholes = (c.nsites - c.nholes : Nat) by omega, pyComb_nat, pyComb_nat]
    change 1 < min nbState (computeDimension c.nsites ((c.nsites : Int) - c.nholes - (c.nsites - c.nholes - a : Nat)) (c.nsites - c.nholes - a : Nat))
    rw [e]
    have g1 : 2 ≤ c.nsites.choose c.nholes := by
      obtain ⟨n, hn⟩ : ∃ n, c.nsites = n + 1 := ⟨c.nsites - 1, by omega⟩
      obtain ⟨k, hk⟩ : ∃ k, c.nholes = k + 1 := ⟨c.nholes - 1, by omega⟩
      rw [hn, hk, Nat.choose_succ_succ, Nat.succ_eq_add_one]
      have := Nat.choose_pos (n := n) (k := k) (by omega)
      have := Nat.choose_pos (n := n) (k := k + 1) (by omega)
      omega
    have g2 : 1 ≤ (c.nsites - c.nholes).choose a := Nat.choose_pos (by omega)
    have : 2 ≤ c.nsites.choose c.nholes * (c.nsites - c.nholes).choose a := by nlinarith
    omega

/-- C86. For the two lowest states the function always ends with `TypeError`. -/
theorem C86_low_states_fail (E : Env) (c : Config) (nbh nbv nb : Nat) (hc : RectConf c nbh nbv nb) (hf : c.Full)
    (h2 : c.nholes ≤ c.nsites) (I : Interactions K) (b : BoolInteractions) (nbState nbT nbV : Nat) (hs : nbState ≤ 1) (hT : 1 ≤ nbT) :
    savePhaseSpace E c I b nbState nbT nbV = .error .typeError := by
  unfold savePhaseSpace
  obtain ⟨m, hm⟩ : ∃ m, c.nsites + 1 - c.nholes = m + 1 := ⟨c.nsites - c.nholes, by omega⟩
  rw [hm, List.range_succ_eq_map, List.mapM_cons]
  obtain ⟨p1, p2⟩ := sector_props hc hf (c.nsites - c.nholes - 0)
  rw [phaseSector_eq E _ p1 p2 (show c.nholes + (c.nsites - c.nholes - 0) ≤ c.nsites by omega), if_neg (by omega), if_neg (by omega)]
  rfl

end

example : savePhaseSpace exEnv (rectConf 2 2 1 1 1) exI ⟨true, true, true, true, true, true⟩ 2 3 5 =
    .ok (List.replicate 4 (List.replicate 3 (List.replicate 3 (0, 0)))) :=
  C86_draws_zero exEnv _ 2 2 1 (rectConf_ok 2 2 1 1 1 (by decide) (by decide) (by decide))
    (by unfold Config.Full; decide) (by decide) (by decide) _ _ 2 3 5 (by decide)

end TJ
