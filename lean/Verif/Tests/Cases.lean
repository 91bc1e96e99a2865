import Verif.Props.Basis
import Verif.Props.Lattice
import Verif.Props.Det
import Verif.Props.Linear
import Verif.Props.Interactions
import Verif.Props.Hamiltonian
import Verif.Props.Csr
import Verif.Props.Observables
import Verif.Props.Rotation
import Verif.Props.Spin
import Verif.Props.SpinZ
import Verif.Props.Phase
import Verif.Props.PhaseAxes
import Verif.Props.Plots
import Verif.Props.Symmetry
import Verif.Props.SetOrder
import Verif.Props.SmallLattice
import Verif.Props.RowSpectrum
import Verif.Props.PostProcessing2
import Verif.Props.Dynamic
import Verif.Props.IO
import Verif.Props.DavidsonSpace
import Verif.Props.RitzValues
import Verif.Props.Denominators
import Verif.Props.Dependance
import Verif.Props.MainRun
import Verif.Props.GeneratePlots
import Verif.Props.BlocksRun
import Verif.Props.LiebMattis
import Verif.Props.SumRule
import Verif.Props.Couplings
import Verif.Props.Initial
import Verif.Props.Embedding6
import Verif.Props.EmbeddingTotal

/-! Cases which meet the hypotheses of the theorems that have no example in their own file: each theorem is applied to a
concrete lattice, determinant and vector, and its conclusion follows for that case. -/

namespace TJ.Cases
open Matrix

/-- Two rows of three sites, one hole and two down spins: 60 determinants. -/
abbrev c6 : Config := rectConf 3 2 1 1 2

theorem rect6 : RectConf c6 3 2 1 := rectConf_ok 3 2 1 1 2 (by decide) (by decide) (by decide)
theorem full6 : c6.Full := by unfold Config.Full; decide +kernel
theorem room6 : c6.nholes + c6.nbeta ≤ c6.nsites := by decide +kernel

/-- Two rows of two sites, one hole and one down spin: 12 determinants. -/
abbrev c4 : Config := rectConf 2 2 1 1 1

theorem rect4 : RectConf c4 2 2 1 := rectConf_ok 2 2 1 1 1 (by decide) (by decide) (by decide)
theorem full4 : c4.Full := by unfold Config.Full; decide +kernel
theorem room4 : c4.nholes + c4.nbeta ≤ c4.nsites := by decide +kernel

theorem bond6 : (∀ i < c6.nsites, ∀ j < c6.nsites, c6.bond.e i j = 0 ∨ c6.bond.e i j = 1) ∧
    (∀ i < c6.nsites, ∀ j < c6.nsites, c6.bond.e i j = c6.bond.e j i) ∧ ∀ i < c6.nsites, c6.bond.e i i = 0 := by decide +kernel

/-- All six interactions switched on. -/
abbrev on : BoolInteractions := ⟨true, true, true, true, true, true⟩

/-! Bases, lattices and determinants. -/

example := C03_basis_sorted c6 _ (constructBasis_eq c6)

example := C17_bond_list SetSem.sorted c6.bond bond6.2.1 bond6.2.2
example := C18_neighbors SetSem.sorted c6.bond (.list [1, 3]) 4 (by decide +kernel)
example := C18_outside SetSem.sorted c6.bond (.list []) 6 (by decide +kernel)

example := C09_site_queries SetSem.sorted c6 full6 [4, 0, 2, 1, 3, 5] (by decide +kernel) true
example := C10_reverse_spins SetSem.sorted c6 full6 room6 [4, 0, 2, 1, 3, 5] (by decide +kernel)
example := C11_reverse_vect (K := ℚ) SetSem.sorted c4 full4 room4 _ _ (constructBasis_eq c4) (constructBasis_eq c4.flip)
  (List.replicate (basisList c4.nsites c4.nholes c4.nbeta).length 3) (by simp)

/-- Sites 0, 1, 2 are on a line, sites 0, 1, 4 are not. -/
example := And.intro
  (C19_rectangular_linear exEnv c6 3 2 1 rect6 0 1 2 (by decide +kernel) (by decide +kernel) (by decide +kernel) (by decide)
    (by decide +kernel) (by decide +kernel) 2 0 1 (by decide))
  (C19_rectangular_linear exEnv c6 3 2 1 rect6 0 1 4 (by decide +kernel) (by decide +kernel) (by decide +kernel) (by decide)
    (by decide +kernel) (by decide +kernel) 4 0 1 (by decide))

example := C23_errors exEnv c6 rect6.ltype bond6.1 bond6.2.1 bond6.2.2 0 1 3 (by decide +kernel) (by decide +kernel) (by decide +kernel)

/-! Interactions: the determinant has its hole at site 4 and down spins at sites 0 and 2. -/

example := C25_next_hopping exEnv c6 rect6.ltype bond6.1 bond6.2.1 bond6.2.2 full6 room6 [4, 0, 2, 1, 3, 5] (by decide +kernel)
example := C26_static exEnv c6 3 2 1 rect6 exI full6 [4, 0, 2, 1, 3, 5] (by decide +kernel)
example := C26_static_opposite exEnv c6 _ (rect6.geom exEnv) exI full6 [4, 0, 2, 1, 3, 5] (by decide +kernel)
example := C26_static_plane exEnv c6 _ (rect6.geom exEnv) exI full6 [4, 0, 2, 1, 3, 5] (by decide +kernel)
example := C27_spin_flip exEnv c6 3 2 1 rect6 full6 room6 [4, 0, 2, 1, 3, 5] (by decide +kernel)
example := C28_singlet exEnv c6 rect6.ltype bond6.1 bond6.2.1 bond6.2.2 full6 room6 [4, 0, 2, 1, 3, 5] (by decide +kernel)
example := C29_repulsion_plane exEnv c6 _ (rect6.geom exEnv) exI full6 [4, 0, 2, 1, 3, 5] (by decide +kernel)

/-! The matrix of the six interactions on two rows of two sites. -/

theorem ham4 (B : BoolInteractions) (I : Interactions ℚ := exI) :
    ∃ H, buildHamiltonian exEnv c4 I (basisList c4.nsites c4.nholes c4.nbeta) B [] false = .ok H := by
  obtain ⟨dets, H, hb, h, _⟩ := C30_no_failure exEnv c4 2 2 1 rect4 full4 room4 I B [] false
  rw [constructBasis_eq c4] at hb
  obtain rfl := Except.ok.inj hb
  exact ⟨H, h⟩

example := C35_additive exEnv c4 exI _ on [] false _ (ham4 on).choose_spec

example : ∃ H, buildHamiltonian exEnv c4 exI (basisList c4.nsites c4.nholes c4.nbeta) on [] false = .ok H := by
  obtain ⟨H1, h1⟩ := ham4 ⟨true, false, false, false, false, false⟩
  obtain ⟨H2, h2⟩ := ham4 ⟨false, true, false, false, false, false⟩
  obtain ⟨H3, h3⟩ := ham4 ⟨false, false, true, false, false, false⟩
  obtain ⟨H4, h4⟩ := ham4 ⟨false, false, false, true, false, false⟩
  obtain ⟨H5, h5⟩ := ham4 ⟨false, false, false, false, true, false⟩
  obtain ⟨H6, h6⟩ := ham4 ⟨false, false, false, false, false, true⟩
  exact C35_combination exEnv c4 exI _ on [] false H1 H2 H3 H4 H5 H6 h1 h2 h3 h4 h5 h6

example : ∃ e, computeEnergy exEnv c4 exI ((basisList c4.nsites c4.nholes c4.nbeta)[7]'(by decide +kernel)) = .ok e := by
  obtain ⟨H, h⟩ := ham4 ⟨false, true, false, false, false, true⟩
  exact ⟨_, (C36_energy_is_diagonal exEnv c4 exI _ [] false H h 7 (by decide +kernel)).1⟩

example : ∃ H, buildHamiltonian exEnv c4 exI (basisList c4.nsites c4.nholes c4.nbeta) on [] false = .ok H ∧
    (∀ x : Fin H.dim → ℚ, (H.toCsr insertionRows).dot H.dim (List.ofFn x) = List.ofFn (Matrix.mulVec H.toMatrix x)) ∧
    (∀ x : List ℚ, x.length = (basisList c4.nsites c4.nholes c4.nbeta).length →
      amp c4 (basisList c4.nsites c4.nholes c4.nbeta) ((H.toCsr insertionRows).dot (basisList c4.nsites c4.nholes c4.nbeta).length x) =
        tjOp exI (fun s => gridPos (2 * 1) s) on (amp c4 (basisList c4.nsites c4.nholes c4.nbeta) x)) := by
  obtain ⟨H, h⟩ := ham4 on
  exact ⟨H, h, fun x => (C112_product insertionRows insertionRows_sort exEnv c4 exI _ on [] false H h x).1,
    fun x hx => C112_operator insertionRows insertionRows_sort exEnv c4 2 2 1 rect4 full4 room4 exI on [] false _ (constructBasis_eq c4) H h x hx⟩

/-! Probabilities, dominant determinants and displays. -/

/-- A vector of the basis of `c4` whose coefficients all differ. -/
abbrev v4 : List ℚ := (List.range (basisList c4.nsites c4.nholes c4.nbeta).length).map (fun i => (i : ℚ) + 1)

theorem len4 : v4.length = (basisList c4.nsites c4.nholes c4.nbeta).length := by simp
theorem nonzero4 : ∃ x ∈ v4, x ≠ 0 := by decide +kernel

/-- The first determinant of the basis of `c4`: a vector of norm 1. -/
abbrev u4 : List ℚ := (List.range (basisList c4.nsites c4.nholes c4.nbeta).length).map (fun i => if i = 0 then 1 else 0)

theorem unit4 : vdot u4 u4 = 1 := by decide +kernel

example := C42_probabilities c4 _ (constructBasis_eq c4) room4 v4 len4 nonzero4
example := C42_reverse c4 _ (constructBasis_eq c4) room4 v4 len4
example := C42_wrong_spin c4 (basisList c4.nsites c4.nholes c4.nbeta) v4 2 false (by decide)
example := C43_errors (periConf 2 2 1 1 1) [] v4 1 (Or.inl (by decide +kernel))
example := C43_errors c4 (basisList c4.nsites c4.nholes c4.nbeta) v4 (-3) (Or.inr (by decide))
example := C43_sum_is_inverse_norm c4 rect4 _ (constructBasis_eq c4) room4 v4 len4 nonzero4
example := C43_sum_partial c4 rect4 _ (constructBasis_eq c4) room4 u4 (by simp) unit4
example := C44_dominant_partial c4 _ (constructBasis_eq c4) v4 len4 (by decide +kernel) 5
/-- Here all moduli but one are equal. -/
example := C44_moduli_partial c4 _ (constructBasis_eq c4) u4 (by simp) 5
/-- The second list is the first with its two down spins in the other order. -/
example := C46_display_determines_index_partial c6 room6 [4, 0, 2, 1, 3, 5] [4, 2, 0, 1, 3, 5] (by decide +kernel) (by decide +kernel)
example := C46_display_partial c6 room6 [4, 0, 2, 1, 3, 5] (by decide +kernel)

/-! Rotations. -/

/-- The half turn of the square of four sites exchanges 0 with 3 and 1 with 2. -/
example := C13_bonds c4 2 2 1 rect4 2 0 1 3 2 (by decide +kernel) (by decide +kernel) (by decide +kernel) (by decide +kernel)
  (by decide +kernel) (by decide +kernel)
example := C13_inverse c4 2 ⟨by decide +kernel, by decide +kernel, by decide +kernel⟩ room4 1 [0, 1, 2, 3] [2, 0, 1, 3]
  (by unfold Canonical; decide +kernel) (by decide +kernel)

/-! Spins. -/

theorem order4 (S : SetSem) : HolesInOrder S c4 := C39_one_hole_in_order S c4 (by decide +kernel)

example := C38_commutes_partial exEnv SetSem.sorted c4 2 2 1 rect4 full4 (order4 _) room4 exI on rfl [] false _ (constructBasis_eq c4) _
  (ham4 on).choose_spec v4 len4

example : ∃ H w, buildHamiltonian exEnv c4 exI (basisList c4.nsites c4.nholes c4.nbeta) on [] false = .ok H ∧
    computeS2 SetSem.sorted c4 v4 = .ok w ∧ ∀ k (hk : k < (basisList c4.nsites c4.nholes c4.nbeta).length),
      (matVec H w).getD k 0 = spin2 (amp c4 (basisList c4.nsites c4.nholes c4.nbeta) (matVec H v4))
        (conf c4 (basisList c4.nsites c4.nholes c4.nbeta)[k]) := by
  obtain ⟨H, h⟩ := ham4 on
  obtain ⟨w, w1, _, w2⟩ := C40_total_spin_partial SetSem.sorted c4 full4 (order4 _) room4 _ (constructBasis_eq c4) v4 len4
  exact ⟨H, w, h, w1, fun k hk => C38_conserves_total_spin exEnv c4 2 2 1 rect4 full4 room4 exI on rfl [] false _ (constructBasis_eq c4) H h
    v4 w w2 k hk⟩

example := C39_s_plus_s_minus_partial SetSem.sorted c4 full4 (order4 _) room4 _ (constructBasis_eq c4) v4 len4
  ⟨1, by decide +kernel⟩ ⟨2, by decide +kernel⟩
example := C40_symmetric_partial SetSem.sorted c4 full4 (order4 _) room4 _ (constructBasis_eq c4) u4 v4 (by simp) len4

example := C91_bad_site c4 room4 v4 (by decide +kernel) 1 7 (Or.inr (by decide +kernel))
example := C91_total c4 room4 _ (constructBasis_eq c4) v4 len4
example := C91_two_bodies c4 room4 _ (constructBasis_eq c4) v4 len4 ⟨1, by decide +kernel⟩ ⟨2, by decide +kernel⟩
example := C119_projection (K := ℚ) c6 room6 [4, 0, 2, 1, 3, 5] (by decide +kernel)

/-- Sites below 8, given in a decreasing order. -/
example := C81_small_sets [5, 3, 0] [3, 5, 8] (by decide)
/-- Two holes and three down spins on sixteen sites: some vector is treated wrongly. -/
example : ¬ ∀ v : List ℚ, v.length = (basisList 16 2 3).length → ∃ w, computeS2 SetSem.cpython (rectConf 4 4 1 2 3) v = .ok w ∧
    w.length = (basisList 16 2 3).length ∧ ∀ k (hk : k < (basisList 16 2 3).length), w.getD k 0 =
      spin2 (amp (rectConf 4 4 1 2 3) (basisList 16 2 3) v) (conf (rectConf 4 4 1 2 3) (basisList 16 2 3)[k]) := by
  intro h
  have := (C81_total_spin_iff (rectConf 4 4 1 2 3) (by unfold Config.Full; decide +kernel) (by decide +kernel) (basisList 16 2 3)
    (constructBasis_eq _)).1 h
  revert this
  decide +kernel
/-- Two holes and two down spins on eight sites, with any vector; and parallel spins with any order of the sets. -/
example := (C40_total_spin_iff (K := ℚ) SetSem.cpython (rectConf 4 2 1 2 2) (by unfold Config.Full; decide +kernel) (by decide +kernel) _
  (constructBasis_eq _)).2 (Or.inr (Or.inr ((C81_in_order_iff _ (by unfold Config.Full; decide +kernel) (by decide +kernel)).2 (Or.inr (by decide +kernel)))))
example := (C39_right_iff (K := ℚ) SetSem.slots8 (rectConf 3 3 1 2 0) (by unfold Config.Full; decide +kernel) (by decide +kernel) _
  (constructBasis_eq _)).2 (Or.inr (Or.inl rfl))
/-- Five holes on eight sites. -/
example := C81_total_spin (K := ℚ) (rectConf 4 2 1 5 1) (by unfold Config.Full; decide +kernel)
  (Or.inr (by decide +kernel)) (by decide +kernel) _ (constructBasis_eq _)
  (List.replicate (basisList (rectConf 4 2 1 5 1).nsites (rectConf 4 2 1 5 1).nholes (rectConf 4 2 1 5 1).nbeta).length 2) (by simp)

/-! Multiplicities and phase diagrams. -/

/-- The triplet of two electrons. -/
example := C85_names SetSem.sorted (rectConf 2 1 1 0 1) [(1 : ℚ), 1] 2 (by decide +kernel)
example := C85_values_partial SetSem.sorted (rectConf 2 1 1 0 1) [[(1 : ℚ), 1], [1, -1]] (fun v => if v = [1, 1] then 2 else 0)
  (by decide +kernel)
example := C86_all_zero exEnv c4 2 2 1 rect4 full4 exI on 2 3 5 (List.replicate 4 (List.replicate 3 (List.replicate 3 (0, 0))))
  (C86_draws_zero exEnv c4 2 2 1 rect4 full4 (by decide) (by decide) _ _ 2 3 5 (by decide))
example := C86_low_states_fail exEnv c4 2 2 1 rect4 full4 (by decide +kernel) exI on 1 3 5 (by decide) (by decide)
example := C108_wrong_rows (⟨1, 2, 3, 5, 7, 11, 13, 17, 19, 23⟩ : Interactions ℝ) (by norm_num) 6 2 (by decide)

/-! Pictures. -/

/-- A row of three sites. -/
example := C94_one_row_partial (rectConf 3 1 1 1 1) (rectConf_ok 3 1 1 1 1 (by decide) (by decide) (by decide)) _ (constructBasis_eq _)
  (by decide +kernel) [(1 : ℚ), 0, 0, 0, 0, 0] (by decide +kernel) .hole (by decide +kernel) (by decide +kernel)
/-- Two rows of two sites with one hole and three up spins. -/
example := C96_no_down_partial (rectConf 2 2 1 1 0) (rectConf_ok 2 2 1 1 0 (by decide) (by decide) (by decide)) _ (constructBasis_eq _)
  (by decide +kernel) [[(3 / 5 : ℚ), 4 / 5, 0, 0]] 0 _ rfl (by decide +kernel) (by decide +kernel) (by decide +kernel)
example := C96_no_state c4 (basisList c4.nsites c4.nholes c4.nbeta) [v4] 1 (by decide)
example := C96_not_the_charge c4 rect4 _ (constructBasis_eq c4) room4 [v4] 0 v4 rfl len4 nonzero4 (by decide +kernel)

example := C76_never_smoother [(0, "a", 0), (1, "a", 1), (3, "a", 2), (4, "a", 3), (9, "a", 4)]
  [(0, "b", 0), (2, "b", 1), (3, "b", 2), (7, "b", 3), (8, "b", 4)] 2 (by decide) (by decide)
example := C77_sweep_files_partial c6 (by decide +kernel) on true

/-! Symmetries of the lattice. -/

/-- The quarter turn of the square after a mirror. -/
example : ∃ H i' j', buildHamiltonian exEnv c4 exI (basisList c4.nsites c4.nholes c4.nbeta) on [] false = .ok H ∧
    H.entry i' j' = H.entry 1 5 := by
  obtain ⟨H, h⟩ := ham4 on
  have hs : LatSym (2 * 1) (2 * 1) (turn (2 * 1) ∘ mirrorX (2 * 1) ∘ id) := .quarter rfl (.mirX .one)
  obtain ⟨i', hi, _⟩ := C98_moved_exists c4 2 2 1 rect4 room4 _ (constructBasis_eq c4) _ hs 1 (by decide +kernel)
  obtain ⟨j', hj, _⟩ := C98_moved_exists c4 2 2 1 rect4 room4 _ (constructBasis_eq c4) _ hs 5 (by decide +kernel)
  exact ⟨H, i', j', h, C98_hamiltonian exEnv c4 2 2 1 rect4 full4 room4 exI on [] false _ (constructBasis_eq c4) H h _ hs 1 5 i' j'
    (by decide +kernel) (by decide +kernel) i'.2 j'.2 hi hj⟩

/-- Four sites in a row with one hole and one down spin, hopping only. -/
example : ∃ H : SpMat ℝ, IsLeast {μ | Module.End.HasEigenvalue (Matrix.toLin' H.toMatrix) μ}
    (|(1 : ℝ)| * (1 - Real.sin ((2 * ((rectConf 4 1 1 1 1).nholes : ℝ) + 1) * Real.pi / (2 * ((rectConf 4 1 1 1 1).nsites + 1))) /
      Real.sin (Real.pi / (2 * ((rectConf 4 1 1 1 1).nsites + 1))))) := by
  have hc := rectConf_ok 4 1 1 1 1 (by decide) (by decide) (by decide)
  have hf : (rectConf 4 1 1 1 1).Full := by unfold Config.Full; decide +kernel
  obtain ⟨dets, H, hb, h, _⟩ := C30_no_failure exEnv _ 4 1 1 hc hf (by decide +kernel) (⟨1, 2, 3, 5, 7, 11, 13, 17, 19, 23⟩ : Interactions ℝ)
    ⟨true, false, false, false, false, false⟩ [] false
  exact ⟨H, C125_lowest exEnv _ 4 1 1 hc hf (by decide +kernel) (Or.inr (by decide)) ⟨1, 2, 3, 5, 7, 11, 13, 17, 19, 23⟩ _ rfl ⟨rfl, rfl, rfl, rfl, rfl⟩
    [] false dets hb H h⟩

/-! Rows of the matrix. -/

theorem dynamic4 (B : BoolInteractions) :
    ∃ H F, buildHamiltonian exEnv c4 exI (basisList c4.nsites c4.nholes c4.nbeta) B [] false = .ok H ∧
      buildHamiltonian exEnv c4 exI (basisList c4.nsites c4.nholes c4.nbeta) ⟨false, false, B.bij, false, false, false⟩ [] false = .ok F ∧
      ∃ D, computeDynamic exEnv c4 exI B ((basisList c4.nsites c4.nholes c4.nbeta)[3]'(by decide +kernel)) = .ok D ∧
        ∀ j (hj : j < (basisList c4.nsites c4.nholes c4.nbeta).length), j ≠ 3 →
          (dictGet D (basisList c4.nsites c4.nholes c4.nbeta)[j]).getD 0 = H.entry 3 j + F.entry 3 j := by
  obtain ⟨H, h⟩ := ham4 B
  obtain ⟨F, f⟩ := ham4 ⟨false, false, B.bij, false, false, false⟩
  obtain ⟨D, d1, _, _, d2⟩ := C37_dynamic_partial (by norm_num) exEnv c4 2 2 1 rect4 full4 room4 exI B [] false _ (constructBasis_eq c4) H F h f 3
    (by decide +kernel)
  exact ⟨H, F, h, f, D, d1, d2⟩

example := dynamic4 on
example := C37_dynamic_without_flips_partial (K := ℚ) (by norm_num) exEnv c4 2 2 1 rect4 full4 room4 exI ⟨true, true, false, true, true, true⟩ rfl []
  false _ (constructBasis_eq c4) _ (ham4 _).choose_spec 3 (by decide +kernel)

/-! Files. -/

example := C54_lattice_type_lost exSaved _ rfl (by decide +kernel) exSaved_shape (by decide +kernel)
example := C54_restriction_unusable exSaved _ rfl (by decide +kernel) exSaved_shape SetSem.sorted [0, 1, 2, 3] 1 (by decide) false
example := C55_small_lattices_partial 8 3 4 8 3 4 (by decide) (by decide) (by decide) (by decide) on ⟨true, true, true, false, true, true⟩
example := C72_sweep_loses_lattice_type (periConf 2 2 1 2 3) (by decide +kernel) (by decide +kernel) (by decide +kernel)

/-! Davidson. -/

/-- Two rows, sorted by insertion and by merging. -/
example := C112_sorting insertionRows (fun l : List (Nat × ℚ) => l.mergeSort (fun p q => decide (p.1 ≤ q.1))) insertionRows_sort
  (fun l => ⟨List.mergeSort_perm l _, by
    have := List.pairwise_mergeSort (le := fun p q : Nat × ℚ => decide (p.1 ≤ q.1)) (by intro a b c h1 h2; simp at *; omega)
      (by intro a b; simp; omega) l
    exact this.imp fun h => by simpa using h⟩) ⟨2, [(1, 0, 1), (2, 0, 0), (3, 0, 1)]⟩

/-- Two states of a matrix of order 4, without a limit that restarts the search. -/
example : ∃ r, modifiedDavidson realLib exMat 2 none 3 (1 / 1000) 6 = .ok r ∧
    ∀ k (hk : k + 1 < r.trace.length), r.trace[k + 1].length = min 4 (r.trace[k].length + 2) := by
  obtain ⟨r, h⟩ := C50_no_failure realLib realLib_qr realLib_rand exMat 2 none 3 (by omega) (1 / 1000) 6 (by simp) (by simp)
  exact ⟨r, h, fun k hk => (C82_grows_partial realLib realLib_qr exMat 2 none 3 _ 6 (by omega) (by omega) r h k hk).1⟩

example : ∃ r r', modifiedDavidson realLib exMat 2 none 1 (1 / 1000) 0 = .ok r ∧ modifiedDavidson realLib exMat 2 none 3 (1 / 1000) 0 = .ok r' ∧
    ∀ (h : 0 < r.eigvals.length) (h' : 0 < r'.eigvals.length), r'.eigvals[0] ≤ r.eigvals[0] := by
  obtain ⟨r, h⟩ := C50_no_failure realLib realLib_qr realLib_rand exMat 2 none 1 (by omega) (1 / 1000) 0 (by simp) (by simp)
  obtain ⟨r', h'⟩ := C50_no_failure realLib realLib_qr realLib_rand exMat 2 none 3 (by omega) (1 / 1000) 0 (by simp) (by simp)
  exact ⟨r, r', h, h', fun h0 h0' => C67_lowest_value_decreases realLib realLib_eigh realLib_qr exMat exMat_symm 2 none 1 3 (by omega) _ 0
    (Or.inl (by simp)) r r' h h' h0 h0'⟩

/-- The eigenvalues of the matrix, in increasing order, are below the values of the run. -/
example : ∃ r, modifiedDavidson realLib exMat 2 none 3 (1 / 1000) 0 = .ok r ∧ ∃ mu : Fin 4 → ℝ, Monotone mu ∧
    ∀ k (hk : k < r.eigvals.length), ∃ hd : k < 4, mu ⟨k, hd⟩ ≤ r.eigvals[k] := by
  obtain ⟨r, h⟩ := C50_no_failure realLib realLib_qr realLib_rand exMat 2 none 3 (by omega) (1 / 1000) 0 (by simp) (by simp)
  obtain ⟨mu, x, x1, x2, x3⟩ := exists_sorted exMat exMat_symm
  exact ⟨r, h, mu, x3, fun k hk => C99_sorted realLib realLib_eigh realLib_qr exMat exMat_symm 2 none 3 _ 0 r h (Or.inl (by simp)) mu x x1 x2
    (fun i j hij => x3 hij) k hk⟩

/-- Three vectors in dimension 2. -/
example := C83_too_many realLib (!![1, 0; 0, 2] : Matrix (Fin 2) (Fin 2) ℝ) [![1, 0], ![0, 1], ![1, 1]] (by simp)

/-- Two of the twelve determinants. -/
example := C118_orthonormal (K := ℝ) c4 _ (constructBasis_eq c4) (by decide +kernel) [[1, 0, 2, 3], [0, 2, 1, 3]] (by decide +kernel) (by decide +kernel)

/-! Energies. -/

theorem hamR (c : Config) (nbh nbv nb : Nat) (hc : RectConf c nbh nbv nb) (hf : c.Full) (hn : c.nholes + c.nbeta ≤ c.nsites) (I : Interactions ℝ)
    (B : BoolInteractions) : ∃ H, buildHamiltonian exEnv c I (basisList c.nsites c.nholes c.nbeta) B [] false = .ok H ∧ H.toMatrix.IsSymm ∧
      H.dim = (basisList c.nsites c.nholes c.nbeta).length := by
  obtain ⟨dets, H, hb, h, h1, _⟩ := C30_no_failure exEnv c nbh nbv nb hc hf hn I B [] false
  have := built_form hc hf hn hb h
  rw [constructBasis_eq c] at hb
  obtain rfl := Except.ok.inj hb
  exact ⟨H, h, this.2.1, h1⟩

theorem least {d : Nat} {A : Matrix (Fin d) (Fin d) ℝ} (hA : A.IsSymm) (hd : 0 < d) : ∃ e, IsLeast {μ | Module.End.HasEigenvalue (Matrix.toLin' A) μ} e :=
  exists_least hA hd

theorem hasEigen {d : Nat} {A : Matrix (Fin d) (Fin d) ℝ} {e : ℝ} : Module.End.HasEigenvalue (Matrix.toLin' A) e ↔ ∃ x, x ≠ 0 ∧ A *ᵥ x = e • x := by
  constructor
  · intro h
    obtain ⟨x, hx⟩ := h.exists_hasEigenvector
    exact ⟨x, hx.2, by simpa using hx.apply_eq_smul⟩
  · rintro ⟨x, h0, hx⟩
    exact Module.End.hasEigenvalue_of_hasEigenvector (x := x) ⟨by rw [Module.End.mem_eigenspace_iff]; simpa using hx, h0⟩

/-- Two rows of two sites without a hole: the lowest state has the signs of the Marshall rule. -/
example : ∃ (H : SpMat ℝ) (x : Fin H.dim → ℝ), x ≠ 0 ∧ ∀ (i j : Fin H.dim) (hi : i.1 < (basisList 4 0 2).length) (hj : j.1 < (basisList 4 0 2).length),
    0 < marshall (fun t : Fin (rectConf 2 2 1 0 2).nsites => gridPos (2 * 1) t) (conf (rectConf 2 2 1 0 2) (basisList 4 0 2)[i.1]) * x i *
      (marshall (fun t : Fin (rectConf 2 2 1 0 2).nsites => gridPos (2 * 1) t) (conf (rectConf 2 2 1 0 2) (basisList 4 0 2)[j.1]) * x j) := by
  have hc := rectConf_ok 2 2 1 0 2 (by decide) (by decide) (by decide)
  have hf : (rectConf 2 2 1 0 2).Full := by unfold Config.Full; decide +kernel
  obtain ⟨H, h, hs, hd⟩ := hamR (rectConf 2 2 1 0 2) 2 2 1 hc hf (by decide +kernel) ⟨1, 2, 3, 5, 7, 11, 13, 17, 19, 23⟩ on
  have hpos : 0 < H.dim := by rw [hd]; decide +kernel
  obtain ⟨e, he⟩ := least hs hpos
  obtain ⟨x, x0, hx⟩ := hasEigen.1 he.1
  exact ⟨H, x, x0, fun i j hi hj => C109_signs exEnv (rectConf 2 2 1 0 2) 2 2 1 hc hf rfl (by decide +kernel) ⟨1, 2, 3, 5, 7, 11, 13, 17, 19, 23⟩ (by norm_num)
    on rfl [] false _ (constructBasis_eq _) H h e he x hx x0 i j hi hj⟩

/-- Exchange and repulsion with two holes, two down and two up spins on six sites. -/
example : ∃ (e0 e1 : ℝ) (H : SpMat ℝ), IsLeast {μ | Module.End.HasEigenvalue (Matrix.toLin' H.toMatrix) μ} e0 ∧
    IsGreatest {μ | Module.End.HasEigenvalue (Matrix.toLin' H.toMatrix) μ} e1 ∧ e0 ≤ e1 := by
  have hc := rectConf_ok 3 2 1 2 2 (by decide) (by decide) (by decide)
  have hf : (rectConf 3 2 1 2 2).Full := by unfold Config.Full; decide +kernel
  obtain ⟨H, h, hs, hd⟩ := hamR (rectConf 3 2 1 2 2) 3 2 1 hc hf (by decide +kernel) ⟨1, 2, 2, 2, 7, 11, 13, 17, 19, 23⟩ on
  have hpos : 0 < H.dim := by rw [hd, show (rectConf 3 2 1 2 2).nsites = 6 from rfl]; decide +kernel
  obtain ⟨e, he⟩ := least hs hpos
  obtain ⟨e', he'⟩ := least (A := -H.toMatrix) (by rw [Matrix.IsSymm, Matrix.transpose_neg, hs]) hpos
  have hg : IsGreatest {μ | Module.End.HasEigenvalue (Matrix.toLin' H.toMatrix) μ} (-e') := by
    constructor
    · obtain ⟨x, x0, hx⟩ := hasEigen.1 he'.1
      refine hasEigen.2 ⟨x, x0, ?_⟩
      rw [neg_smul, ← hx, Matrix.neg_mulVec, neg_neg]
    · intro μ hμ
      obtain ⟨x, x0, hx⟩ := hasEigen.1 hμ
      have := he'.2 (hasEigen.2 ⟨x, x0, by rw [Matrix.neg_mulVec, hx, ← neg_smul]⟩)
      linarith
  have := C122_lowest exEnv hc hf (by decide +kernel) (by decide +kernel) ⟨1, 2, 2, 2, 7, 11, 13, 17, 19, 23⟩ on (fun _ => Or.inr ⟨rfl, rfl⟩) [] false _
    (constructBasis_eq _) H h e (-e') he hg
  exact ⟨e, -e', H, he, hg, le_trans this.1 this.2⟩

/-- The lowest energy half-way between two sets of couplings. -/
example : ∃ (H H' H'' : SpMat ℝ) (m m' m'' : ℝ), IsLeast {μ | Module.End.HasEigenvalue (Matrix.toLin' H''.toMatrix) μ} m'' ∧ m / 2 + m' / 2 ≤ m'' ∧
    Module.End.HasEigenvalue (Matrix.toLin' H.toMatrix) m ∧ Module.End.HasEigenvalue (Matrix.toLin' H'.toMatrix) m' := by
  obtain ⟨H, h, hs, hd⟩ := hamR c4 2 2 1 rect4 full4 room4 ⟨1, 2, 3, 5, 7, 11, 13, 17, 19, 23⟩ on
  obtain ⟨H', h', hs', hd'⟩ := hamR c4 2 2 1 rect4 full4 room4 ⟨-1, 2, -3, 5, 7, -11, 13, 17, 1, 23⟩ on
  obtain ⟨H'', h'', hs'', hd''⟩ := hamR c4 2 2 1 rect4 full4 room4
    (lincomb (1 / 2) (1 / 2) ⟨1, 2, 3, 5, 7, 11, 13, 17, 19, 23⟩ ⟨-1, 2, -3, 5, 7, -11, 13, 17, 1, 23⟩) on
  have hpos : 0 < (basisList c4.nsites c4.nholes c4.nbeta).length := by decide +kernel
  obtain ⟨e, w, w1, w2, w3⟩ := exists_sorted _ hs
  obtain ⟨e', w', w1', w2', w3'⟩ := exists_sorted _ hs'
  obtain ⟨m, hm⟩ := least hs'' (by omega)
  obtain ⟨z, z0, hz⟩ := hasEigen.1 hm.1
  have ne : ∀ {d : Nat} {w : Fin d → Fin d → ℝ}, (∀ i j, w i ⬝ᵥ w j = if i = j then 1 else 0) → ∀ k, w k ≠ 0 := by
    intro d w hw k h0
    have := hw k k
    rw [h0] at this
    simp at this
  refine ⟨H, H', H'', e ⟨0, by omega⟩, e' ⟨0, by omega⟩, m, hm, ?_, hasEigen.2 ⟨_, ne w2 _, w1 _⟩, hasEigen.2 ⟨_, ne w2' _, w1' _⟩⟩
  have := C115_concave exEnv c4 2 2 1 rect4 full4 room4 _ _ (1 / 2) (1 / 2) (by norm_num) (by norm_num) on [] false _ (constructBasis_eq c4) H H' H'' h h' h''
    e w w1 w2 e' w' w1' w2' (e ⟨0, by omega⟩) (e' ⟨0, by omega⟩) m (fun k => w3 (Fin.mk_le_of_le_val (Nat.zero_le _)))
    (fun k => w3' (Fin.mk_le_of_le_val (Nat.zero_le _))) z z0 hz
  linarith

/-! Embeddings: one hole among up spins on the 2×2 block. -/

/-- The matrix of one of the hops: symmetric. -/
abbrev hop4 : SpMat ℝ := ⟨4, [(1, 0, 1), (1, 1, 0)]⟩

theorem hop4_symm (i j : Nat) : hop4.entry i j = hop4.entry j i := by
  simp only [SpMat.entry, List.filter]
  by_cases h1 : 0 = i <;> by_cases h2 : 1 = j <;> by_cases h3 : 1 = i <;> by_cases h4 : 0 = j <;> simp_all

abbrev d4 : List (List Nat) := [[0, 1, 2, 3], [1, 0, 2, 3], [2, 0, 1, 3], [3, 0, 1, 2]]

theorem runNeel : ∃ r, embeddingNeel exEnv Real.sqrt (davidsonSolver (fun _ => realLib) 2 none 10 (1 / 1000) 0) 1 ⟨1, 1, 0, 0, 0, 0, 0, 0, 0, 0⟩
    (rectConf 1 1 2 1 0) d4 hop4 [[1, 0, 0, 0]] (1 / 100) 20 = .ok r :=
  C92_neel_returns exEnv Real.sqrt (fun _ => realLib) (fun _ => realLib_qr) (fun _ => realLib_ne_zero) (fun _ => realLib_rand)
    (fun _ => realLib_rand_ne_zero) 0 ⟨1, 1, 0, 0, 0, 0, 0, 0, 0, 0⟩ (rectConf 1 1 2 1 0)
    (rectConf_ok _ _ _ _ _ (by decide) (by decide) (by decide)) (by decide) (by decide) d4
    rfl (by decide) hop4 rfl (by simp) [1, 0, 0, 0] rfl [] 2 10 0 (by decide) (by decide) (by decide) (1 / 1000) (1 / 100) 20
    (by decide)

theorem runBlocks (b : Bool) : ∃ r, embeddingBlocks twoEnv Real.sqrt (davidsonSolver (fun _ => realLib) 1 (some [1, 0, 0, 0]) 10 (1 / 1000) 0) 1
    ⟨1, 1, 0, 0, 0, 0, 0, 0, 0, 0⟩ (rectConf 1 1 2 1 0) ⟨false, b, true, 0⟩ d4 hop4 [0] [[1, 0, 0, 0]] (1 / 100) 20 = .ok r :=
  C93_blocks_return twoEnv Real.sqrt (fun _ => realLib) (fun _ => realLib_qr) (fun _ => realLib_ne_zero) (fun _ => realLib_rand)
    0 ⟨1, 1, 0, 0, 0, 0, 0, 0, 0, 0⟩ (rectConf 1 1 2 1 0) (rectConf_ok _ _ _ _ _ (by decide) (by decide) (by decide))
    (by unfold Config.Full; decide) d4 rfl (by decide) ⟨false, b, true, 0⟩ rfl (fun _ => rfl)
    (two_squares_geom 1 0 d4 true) hop4 rfl (by simp) 0 []
    [1, 0, 0, 0] [] rfl ⟨1, by simp, one_ne_zero⟩ 10 0 (by decide) (1 / 1000) (1 / 100) 20 (by decide)

example := C58_pattern (K := ℚ) SetSem.sorted 3 2 1 (by decide) (by decide) (by decide)
example (b : Bool) := C60_blocks _ _ _ _ _ _ _ _ _ hop4_symm _ _ _ _ _ (runBlocks b).choose_spec
/-- Two solvers that differ on one matrix which is not symmetric. -/
example (s : Solver ℝ) := C60_only_symmetric twoEnv Real.sqrt s (fun k M => if M.entry 0 1 ≠ M.entry 1 0 then .error .valueError else s k M)
  (fun k M h => by simp [h 0 1]) 3 ⟨1, 1, 0, 0, 0, 0, 0, 0, 0, 0⟩ (rectConf 1 1 2 1 0) ⟨false, true, true, 0⟩ d4 hop4 hop4_symm [0] [[1, 0, 0, 0]] (1 / 100) 20
example (b : Bool) := C63_converged_partial _ _ _ _ _ _ _ _ _ _ _ _ rfl _ _ _ (runBlocks b).choose_spec
example := C63_neel_last_results _ _ _ _ _ _ _ _ _ _ rfl _ _ _ runNeel.choose_spec
/-- A solver that never returns a value. -/
example := C63_endless twoEnv id (fun _ _ => .ok ([], [])) (fun _ _ r h => by obtain rfl := Except.ok.inj h; rfl) 7 exI (rectConf 1 1 2 1 0)
  ⟨false, true, true, 0⟩ d4 ⟨4, [(1, 0, 1), (1, 1, 0)]⟩ [0] [[1, 0, 0, 0]] 1 20
example := C63_one_diagonalisation twoEnv id (fun _ _ => .ok ([1], [[1, 0, 0, 0]])) (fun _ _ r h => by obtain rfl := Except.ok.inj h; simp) 7 exI
  (rectConf 1 1 2 1 0) ⟨false, true, true, 0⟩ d4 ⟨4, [(1, 0, 1), (1, 1, 0)]⟩ [0] [[1, 0, 0, 0]] 1 20
example := C62_conserved_iff 4 ⟨1, 1, 2⟩ ⟨1, 2, 1⟩ rfl rfl rfl .hole .up (by decide)
example := C62_reversed_key_error 4 ⟨1, 1, 2⟩ ⟨1, 2, 1⟩ rfl rfl rfl (by decide) .hole .up (by decide)

/-- Exchange between sites 2 and 0 of two blocks of two holes, a down and an up spin. -/
example : ∃ su, blockSetup SetSem.sorted (rectConf 1 1 2 2 1) (basisList 4 2 1) true = .ok su := by
  have hf : (rectConf 1 1 2 2 1).Full := by unfold Config.Full; decide +kernel
  exact blockSetup_ok SetSem.sorted (rectConf_ok 1 1 2 2 1 (by decide) (by decide) (by decide)) hf (by decide +kernel) (constructBasis_eq _) true
example (su : BlockSetup) (h : blockSetup SetSem.sorted (rectConf 1 1 2 2 1) (basisList 4 2 1) false = .ok su) (hB : [0, 1, 2, 3] ∈ su.detsB)
    (hsB : getSpinSite su.cB [0, 1, 2, 3] 0 = .ok .hole) :=
  C62_exchange_partial SetSem.sorted (rectConf 1 1 2 2 1) (by unfold Config.Full; decide +kernel) (by decide +kernel) _ (constructBasis_eq _) false
    (Or.inl rfl) su h [0, 1, 2, 3] [0, 1, 2, 3] (by decide +kernel) hB 2 0 .down .hole (by decide +kernel) hsB (by decide)

/-- Site 4 of the peripheral lattice of a 2×2 block is the neighbour of site 0 on the line through 0 and 1 or 2. -/
example (a : Nat) (ha : a = 1 ∨ a = 2) := C20_peripheral_linear_partial exEnv (periConf 2 2 1 0 0)
  (periConf_ok 2 2 1 0 0 (by decide) (by decide) (by decide)) (by decide +kernel) (by decide +kernel) 4 0 a (by decide +kernel) (by decide +kernel)
  (by rcases ha with rfl | rfl <;> decide +kernel) (by omega) (by decide +kernel) (by rcases ha with rfl | rfl <;> decide +kernel) a 4 0
  ((List.Perm.swap _ _ _).trans (List.Perm.cons _ (List.Perm.swap _ _ _)))

/-- Both pairs of a hole and a down spin on two sites. -/
example : ∃ r, performInitial exEnv realLib (fun _ => false) initialCase = .ok r ∧ r.eig.eigvects.length = r.eig.eigvals.length := by
  have hf : initialCase.config.Full := by unfold Config.Full; decide +kernel
  obtain ⟨r, h, _⟩ := C80_no_failure exEnv realLib realLib_qr realLib_rand (fun _ => false) initialCase 2 1 1 initialCase_rect hf (by decide +kernel)
    (fun _ => C39_one_hole_in_order _ _ (by decide +kernel)) _ (constructBasis_eq _) (by decide +kernel) (by decide +kernel) (by intro rows h; cases h)
  exact ⟨r, h, (C80_residues exEnv realLib realLib_sqrt _ initialCase 2 1 1 initialCase_rect hf (by decide +kernel) r h).1⟩

/-- An empty directory. -/
example (neel : Bool) := C130_no_file twoEnv Real.sqrt insertionRows (fun g => davidsonSolver (fun _ => realLib) 1 (some g) 1000 (1 / 1000) 0) 1 emptyDir
  blocksCase neel ⟨false, true, false, 0⟩ (1 / 1000) 20 rfl

example (p : Pictures ℝ) := C114_stops_anyway emptyDir sweepData.config (by decide +kernel) (by decide +kernel) sweepData.bools { mainPlots true with holes := true } rfl p

/-- The sweep over twelve sites, where the names of (1, 11) and (11, 1) coincide. -/
example := C113_always_overwritten exEnv exactRuns (fun _ => realLib_qr) (fun _ => realLib_rand) (fun _ => insertionRows_sort) emptyDir rfl sweepTwelve 4 3 1
  (rectConf_ok 4 3 1 0 0 (by omega) (by omega) (by omega)) (by unfold Config.Full; decide +kernel) (by decide +kernel)
  (fun _ => C39_one_hole_in_order _ _ (by decide +kernel)) (by decide +kernel) (by decide +kernel) (by intro rows h; cases h)
  (fun h => h 1 1 1 (by decide) (by decide) (by decide +kernel) (by decide +kernel))

end TJ.Cases
