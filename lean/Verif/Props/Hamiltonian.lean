/-
Properties C30-C36: the Hamiltonian matrix.
-/
import Verif.Lemmas.Ham
import Verif.Lemmas.HamSym
import Verif.Lemmas.HamLin
import Verif.Props.Det
import Verif.Props.Rotation
import Verif.Props.Interactions

namespace TJ

open Finset

/-! ### C30, C31 -/

/-- C30. On an unrestricted rectangular lattice the Hamiltonian is built without exception
for every choice of switches and couplings, it has the dimension of the basis, and all its
row and column indices are positions in the basis. -/
theorem C30_no_failure {K : Type} [Field K] (E : Env) (c : Config) (nbh nbv nb : Nat) (hc : RectConf c nbh nbv nb)
    (hf : c.Full) (hn : c.nholes + c.nbeta ≤ c.nsites) (I : Interactions K) (B : BoolInteractions) (r : List Nat) (v : Bool) :
    ∃ dets H, constructBasis c = .ok dets ∧ buildHamiltonian E c I dets B r v = .ok H ∧
      H.dim = dets.length ∧ (H.dim : Int) = computeDimension c.nsites c.nalpha c.nbeta ∧
      ∀ t ∈ H.coo, t.2.1 < dets.length ∧ t.2.2 < dets.length := by
  obtain ⟨H, h1, h2, h3, _⟩ := buildHamiltonian_spec I (hc.tj E) hf hn (constructBasis_eq c) B r v
  refine ⟨_, H, constructBasis_eq c, h1, h2, ?_, h3⟩
  rw [h2, C02_dimension c _ (constructBasis_eq c)]
  rfl

example : (buildHamiltonian exEnv (rectConf 2 2 1 1 1) exI
    (basisList 4 1 1) ⟨true, true, true, true, true, true⟩).isOk = true := by decide +kernel

/-- C31. The entries of the Hamiltonian are the textbook matrix elements of the extended
t-J model between the occupations of the two determinants, the sites being the points of
the rectangle. -/
theorem C31_matrix_elements {K : Type} [Field K] (E : Env) (c : Config) (nbh nbv nb : Nat) (hc : RectConf c nbh nbv nb)
    (hf : c.Full) (hn : c.nholes + c.nbeta ≤ c.nsites) (I : Interactions K) (B : BoolInteractions) (r : List Nat) (v : Bool)
    (dets : List (List Nat)) (hb : constructBasis c = .ok dets) (H : SpMat K)
    (hH : buildHamiltonian E c I dets B r v = .ok H) (i j : Nat) (hi : i < dets.length) (hj : j < dets.length) :
    H.entry i j = hamEl I (fun s => gridPos (nbh * nb) s) B (conf c dets[i]) (conf c dets[j]) := by
  obtain ⟨H', h1, h2, _, h3⟩ := buildHamiltonian_spec I (hc.tj E) hf hn hb B r v
  obtain rfl := Except.ok.inj (hH.symm.trans h1)
  rw [entry_eq]
  exact h3 i hi j hj

/-! ### C32 -/

/-- C32. The Hamiltonian is symmetric. -/
theorem C32_symmetric {K : Type} [Field K] (E : Env) (c : Config) (nbh nbv nb : Nat) (hc : RectConf c nbh nbv nb)
    (hf : c.Full) (hn : c.nholes + c.nbeta ≤ c.nsites) (I : Interactions K) (B : BoolInteractions) (r : List Nat) (v : Bool)
    (dets : List (List Nat)) (hb : constructBasis c = .ok dets) (H : SpMat K)
    (hH : buildHamiltonian E c I dets B r v = .ok H) (i j : Nat) : H.entry i j = H.entry j i := by
  obtain ⟨H', h1, h2, h4, h3⟩ := buildHamiltonian_spec I (hc.tj E) hf hn hb B r v
  obtain rfl := Except.ok.inj (hH.symm.trans h1)
  by_cases hij : i < dets.length ∧ j < dets.length
  · rw [C31_matrix_elements E c nbh nbv nb hc hf hn I B r v dets hb H hH i j hij.1 hij.2,
      C31_matrix_elements E c nbh nbv nb hc hf hn I B r v dets hb H hH j i hij.2 hij.1, hamEl_symm]
  · have h0 : ∀ i j, ¬ (i < dets.length ∧ j < dets.length) → H.entry i j = 0 := by
      intro i j h
      rw [entry_eq]
      unfold cooEntry
      apply List.sum_eq_zero
      intro x hx
      obtain ⟨t, ht, rfl⟩ := List.mem_map.1 hx
      rw [if_neg]
      rintro ⟨rfl, rfl⟩
      exact h (h4 t ht)
    rw [h0 i j hij, h0 j i (fun h => hij ⟨h.2, h.1⟩)]

/-- 2 x 2 lattice with a hole: a singlet displacement entry and its transpose. -/
example : (buildHamiltonian exEnv (rectConf 2 2 1 1 1) exI (basisList 4 1 1) ⟨true, true, true, true, true, true⟩).map
    (fun H => (H.entry 2 9, H.entry 9 2)) = .ok (-9, -9) := by decide +kernel

/-! ### C33 -/

/-- C33. The Hamiltonian of the configuration with up and down exchanged has, between the
reversed determinants, the same entries. -/
theorem C33_spin_reversal {K : Type} [Field K] (E : Env) (c c' : Config) (nbh nbv nb : Nat) (hc : RectConf c nbh nbv nb)
    (hf : c.Full) (hn : c.nholes + c.nbeta ≤ c.nsites) (I : Interactions K) (B : BoolInteractions) (r : List Nat) (v : Bool)
    (dets dets' : List (List Nat)) (hb : constructBasis c = .ok dets) (hb' : constructBasis c' = .ok dets')
    (H H' : SpMat K) (hH : buildHamiltonian E c I dets B r v = .ok H) (hH' : buildHamiltonian E c' I dets' B r v = .ok H')
    (i j i' j' : Nat) (hi : i < dets.length) (hj : j < dets.length) (hi' : i' < dets'.length) (hj' : j' < dets'.length)
    (h1 : reverseSpins E.toSetSem c dets[i] = .ok (c', dets'[i'])) (h2 : reverseSpins E.toSetSem c dets[j] = .ok (c', dets'[j'])) :
    H'.entry i' j' = H.entry i j := by
  have vi := valid_getElem hb (List.getElem?_eq_getElem hi)
  have vj := valid_getElem hb (List.getElem?_eq_getElem hj)
  rw [reverseSpins_eq _ hf hn vi] at h1
  rw [reverseSpins_eq _ hf hn vj] at h2
  obtain ⟨rfl, e1⟩ := Prod.mk.inj (Except.ok.inj h1)
  obtain ⟨_, e2⟩ := Prod.mk.inj (Except.ok.inj h2)
  have hc' : RectConf c.flip nbh nbv nb := ⟨hc.hh, hc.hv, hc.hb, hc.ltype, hc.bond⟩
  rw [C31_matrix_elements E c nbh nbv nb hc hf hn I B r v dets hb H hH i j hi hj,
    C31_matrix_elements E c.flip nbh nbv nb hc' (flip_full hf) (flip_hn hn) I B r v dets' hb' H' hH' i' j' hi' hj',
    ← e1, ← e2, ← hamEl_rev I _ B (conf c dets[i])]
  have key : ∀ d, ValidDet c.nsites d → conf c.flip (detOf c.nsites (fun s => (occC c d s).rev)) = (conf c d).rev := by
    intro d hd
    funext s
    exact occ_reverse hn hd s.2
  rw [key _ vi, key _ vj]
  rfl

example : (reverseSpins exEnv.toSetSem (rectConf 2 2 1 1 1) [0, 1, 2, 3]).map (fun p => (p.1.nbeta, p.2)) =
    .ok (2, [0, 2, 3, 1]) := by decide +kernel

/-! ### C34 -/

/-- C34. On a square lattice the Hamiltonian is invariant under quarter turns. -/
theorem C34_rotation_invariant {K : Type} [Field K] (E : Env) (c : Config) (nbh nbv nb : Nat) (hc : RectConf c nbh nbv nb)
    (hq : SquareConf c (nbh * nb)) (hf : c.Full) (hn : c.nholes + c.nbeta ≤ c.nsites) (I : Interactions K)
    (B : BoolInteractions) (r : List Nat) (v : Bool)
    (dets : List (List Nat)) (hb : constructBasis c = .ok dets)
    (H : SpMat K) (hH : buildHamiltonian E c I dets B r v = .ok H) (k : Int)
    (i j i' j' : Nat) (hi : i < dets.length) (hj : j < dets.length) (hi' : i' < dets.length) (hj' : j' < dets.length)
    (h1 : rotateDeterminant k c dets[i] = dets[i'].map (fun (s : Nat) => (s : Int)))
    (h2 : rotateDeterminant k c dets[j] = dets[j'].map (fun (s : Nat) => (s : Int))) :
    H.entry i' j' = H.entry i j := by
  have hcan : ∀ k (hk : k < dets.length), Canonical c.nsites c.nholes c.nbeta dets[k] := by
    rw [constructBasis_eq] at hb
    obtain rfl := Except.ok.inj hb
    exact fun k hk => canonical_of_mem_basisList (List.getElem_mem hk)
  let L := nbh * nb
  have lt : ∀ s < c.nsites, rotSite L k s < c.nsites := by rw [hq.n]; exact fun s hs => rotSite_lt k hs
  have inj : ∀ s < c.nsites, ∀ t < c.nsites, rotSite L k s = rotSite L k t → s = t := by
    rw [hq.n]; exact fun s hs t ht => rotSite_inj k hs ht
  let f : Fin c.nsites → Fin c.nsites := fun s => ⟨rotSite L k s, lt s s.2⟩
  have hfi : Function.Injective f := fun s t h => Fin.ext (inj s s.2 t t.2 (Fin.ext_iff.1 h))
  let e : Fin c.nsites ≃ Fin c.nsites := Equiv.ofBijective f (Finite.injective_iff_bijective.1 hfi)
  have he : ∀ s, (e s).val = rotSite L k s := fun s => rfl
  have hpos : ∀ s : Fin c.nsites, gridPos L (e s) = (turn L ^ k) (gridPos L s) := by
    intro s
    rw [he]
    exact gridPos_rotSite k (by rw [← hq.n]; exact s.2)
  have key : ∀ i i' (hi : i < dets.length) (hi' : i' < dets.length),
      rotateDeterminant k c dets[i] = dets[i'].map (fun (s : Nat) => (s : Int)) →
      conf c dets[i] = fun s => conf c dets[i'] (e s) := by
    intro i i' hi hi' h
    have hc := hcan i hi
    rw [rotate_canonical hq k hc] at h
    have h : detOf c.nsites (occC c (dets[i].map (rotSite L k))) = dets[i'] :=
      (List.map_injective_iff.2 (fun a b h => by exact_mod_cast h)) h
    have hm := hc.1.map lt inj
    funext s
    show occC c dets[i] s = occC c dets[i'] (rotSite L k s)
    rw [← h, show occC c (detOf c.nsites (occC c (dets[i].map (rotSite L k)))) (rotSite L k s) =
      occC c (dets[i].map (rotSite L k)) (rotSite L k s) from
      occ_detOf (σ := occC c (dets[i].map (rotSite L k))) (cnt_occ_hole hm hn) (cnt_occ_down hm hn) (lt s s.2)]
    exact (occ_map hc.1 inj s.2).symm
  rw [C31_matrix_elements E c nbh nbv nb hc hf hn I B r v dets hb H hH i j hi hj,
    C31_matrix_elements E c nbh nbv nb hc hf hn I B r v dets hb H hH i' j' hi' hj', key i i' hi hi' h1, key j j' hj hj' h2]
  symm
  apply hamEl_perm
  · intro a b; simp only [L] at hpos; rw [hpos, hpos, near_zpow]
  · intro a b d; simp only [L] at hpos; rw [hpos, hpos, hpos, aligned_zpow]
  · intro a b; simp only [L] at hpos; rw [hpos, hpos, sameLine_zpow]
  · intro a b; simp only [L] at hpos; rw [hpos, hpos, diagonal_zpow]

/-- A quarter turn of the 2 x 2 lattice maps determinant 0 to determinant 6. -/
example : rotateDeterminant 1 (rectConf 2 2 1 1 1) [0, 1, 2, 3] = [2, 0, 1, 3] := by decide +kernel

/-! ### C35 -/

/-- C35. The Hamiltonian is the sum of the matrices built with each selected switch
alone (an unselected switch contributes the Hamiltonian with no switch), on every
configuration and every list of determinants. -/
theorem C35_additive {K : Type} [Field K] (E : Env) (c : Config) (I : Interactions K) (dets : List (List Nat))
    (B : BoolInteractions) (r : List Nat) (v : Bool) (H : SpMat K) (hH : buildHamiltonian E c I dets B r v = .ok H) :
    ∃ H1 H2 H3 H4 H5 H6 : SpMat K,
      buildHamiltonian E c I dets ⟨B.bt, false, false, false, false, false⟩ r v = .ok H1 ∧
      buildHamiltonian E c I dets ⟨false, B.bz, false, false, false, false⟩ r v = .ok H2 ∧
      buildHamiltonian E c I dets ⟨false, false, B.bij, false, false, false⟩ r v = .ok H3 ∧
      buildHamiltonian E c I dets ⟨false, false, false, B.bSD, false, false⟩ r v = .ok H4 ∧
      buildHamiltonian E c I dets ⟨false, false, false, false, B.btN, false⟩ r v = .ok H5 ∧
      buildHamiltonian E c I dets ⟨false, false, false, false, false, B.bV⟩ r v = .ok H6 ∧
      ∀ i j, H.entry i j = H1.entry i j + H2.entry i j + H3.entry i j + H4.entry i j + H5.entry i j + H6.entry i j := by
  obtain ⟨l1, l2, l3, l4, l5, l6, e1, e2, e3, e4, e5, e6, rfl, hin⟩ := (buildHamiltonian_ok_iff E c I dets B r v H).1 hH
  have i1 : ∀ t ∈ l1, _ := fun t ht => hin t (by simp [ht])
  have i2 : ∀ t ∈ l2, _ := fun t ht => hin t (by simp [ht])
  have i3 : ∀ t ∈ l3, _ := fun t ht => hin t (by simp [ht])
  have i4 : ∀ t ∈ l4, _ := fun t ht => hin t (by simp [ht])
  have i5 : ∀ t ∈ l5, _ := fun t ht => hin t (by simp [ht])
  have i6 : ∀ t ∈ l6, _ := fun t ht => hin t (by simp [ht])
  let D := computeDimension c.nsites c.nalpha c.nbeta
  refine ⟨⟨D, l1⟩, ⟨D, l2⟩, ⟨D, l3⟩, ⟨D, l4⟩, ⟨D, l5⟩, ⟨D, l6⟩, ?_, ?_, ?_, ?_, ?_, ?_, ?_⟩
  · exact (buildHamiltonian_ok_iff E c I dets _ r v _).2 ⟨l1, [], [], [], [], [], e1, rfl, rfl, rfl, rfl, rfl, by simp [D], by simpa using i1⟩
  · exact (buildHamiltonian_ok_iff E c I dets _ r v _).2 ⟨[], l2, [], [], [], [], rfl, e2, rfl, rfl, rfl, rfl, by simp [D], by simpa using i2⟩
  · exact (buildHamiltonian_ok_iff E c I dets _ r v _).2 ⟨[], [], l3, [], [], [], rfl, rfl, e3, rfl, rfl, rfl, by simp [D], by simpa using i3⟩
  · exact (buildHamiltonian_ok_iff E c I dets _ r v _).2 ⟨[], [], [], l4, [], [], rfl, rfl, rfl, e4, rfl, rfl, by simp [D], by simpa using i4⟩
  · exact (buildHamiltonian_ok_iff E c I dets _ r v _).2 ⟨[], [], [], [], l5, [], rfl, rfl, rfl, rfl, e5, rfl, by simp [D], by simpa using i5⟩
  · exact (buildHamiltonian_ok_iff E c I dets _ r v _).2 ⟨[], [], [], [], [], l6, rfl, rfl, rfl, rfl, rfl, e6, by simp [D], by simpa using i6⟩
  · intro i j
    simp only [entry_eq, cooEntry_append]

/-- C35. Conversely, if every selected switch alone gives a matrix, so does the
combination. -/
theorem C35_combination {K : Type} [Field K] (E : Env) (c : Config) (I : Interactions K) (dets : List (List Nat))
    (B : BoolInteractions) (r : List Nat) (v : Bool) (H1 H2 H3 H4 H5 H6 : SpMat K)
    (h1 : buildHamiltonian E c I dets ⟨B.bt, false, false, false, false, false⟩ r v = .ok H1)
    (h2 : buildHamiltonian E c I dets ⟨false, B.bz, false, false, false, false⟩ r v = .ok H2)
    (h3 : buildHamiltonian E c I dets ⟨false, false, B.bij, false, false, false⟩ r v = .ok H3)
    (h4 : buildHamiltonian E c I dets ⟨false, false, false, B.bSD, false, false⟩ r v = .ok H4)
    (h5 : buildHamiltonian E c I dets ⟨false, false, false, false, B.btN, false⟩ r v = .ok H5)
    (h6 : buildHamiltonian E c I dets ⟨false, false, false, false, false, B.bV⟩ r v = .ok H6) :
    ∃ H, buildHamiltonian E c I dets B r v = .ok H := by
  obtain ⟨l1, _, _, _, _, _, e1, _, _, _, _, _, _, g1⟩ := (buildHamiltonian_ok_iff E c I dets _ r v _).1 h1
  obtain ⟨_, l2, _, _, _, _, _, e2, _, _, _, _, _, g2⟩ := (buildHamiltonian_ok_iff E c I dets _ r v _).1 h2
  obtain ⟨_, _, l3, _, _, _, _, _, e3, _, _, _, _, g3⟩ := (buildHamiltonian_ok_iff E c I dets _ r v _).1 h3
  obtain ⟨_, _, _, l4, _, _, _, _, _, e4, _, _, _, g4⟩ := (buildHamiltonian_ok_iff E c I dets _ r v _).1 h4
  obtain ⟨_, _, _, _, l5, _, _, _, _, _, e5, _, _, g5⟩ := (buildHamiltonian_ok_iff E c I dets _ r v _).1 h5
  obtain ⟨_, _, _, _, _, l6, _, _, _, _, _, e6, _, g6⟩ := (buildHamiltonian_ok_iff E c I dets _ r v _).1 h6
  refine ⟨_, (buildHamiltonian_ok_iff E c I dets B r v _).2 ⟨l1, l2, l3, l4, l5, l6, e1, e2, e3, e4, e5, e6, rfl, ?_⟩⟩
  intro t ht
  simp only [List.mem_append] at ht
  rcases ht with ((((ht | ht) | ht) | ht) | ht) | ht
  · exact g1 t (by simp [ht])
  · exact g2 t (by simp [ht])
  · exact g3 t (by simp [ht])
  · exact g4 t (by simp [ht])
  · exact g5 t (by simp [ht])
  · exact g6 t (by simp [ht])

/-- C35. With all switches off the Hamiltonian is the zero matrix of the dimension of the
basis. -/
theorem C35_all_off {K : Type} [Field K] (E : Env) (c : Config) (I : Interactions K) (dets : List (List Nat))
    (r : List Nat) (v : Bool) :
    ∃ H, buildHamiltonian E c I dets ⟨false, false, false, false, false, false⟩ r v = .ok H ∧
      H.dim = computeDimension c.nsites c.nalpha c.nbeta ∧ ∀ i j, H.entry i j = 0 :=
  ⟨⟨_, []⟩, (buildHamiltonian_ok_iff E c I dets _ r v _).2
    ⟨[], [], [], [], [], [], rfl, rfl, rfl, rfl, rfl, rfl, rfl, by simp⟩, rfl, fun _ _ => rfl⟩

/-- C35. The argument `sites_restriction` (and `verbose`) has no influence. -/
theorem C35_restriction_unused {K : Type} [Field K] (E : Env) (c : Config) (I : Interactions K) (dets : List (List Nat))
    (B : BoolInteractions) (r r' : List Nat) (v v' : Bool) :
    buildHamiltonian E c I dets B r v = buildHamiltonian E c I dets B r' v' := rfl

/-- C35. The Hamiltonian is linear in the couplings, on every configuration and list of
determinants; whether it can be built does not depend on the couplings. -/
theorem C35_linear {K : Type} [Field K] (E : Env) (c : Config) (I I' : Interactions K) (dets : List (List Nat))
    (B : BoolInteractions) (r : List Nat) (v : Bool) (H : SpMat K) (hH : buildHamiltonian E c I dets B r v = .ok H) (x y : K) :
    ∃ H' H'', buildHamiltonian E c I' dets B r v = .ok H' ∧ buildHamiltonian E c (lincomb x y I I') dets B r v = .ok H'' ∧
      ∀ i j, H''.entry i j = x * H.entry i j + y * H'.entry i j := by
  rcases buildHamiltonian_lin (K := K) E c dets B r v with ⟨e, he⟩ | ⟨P, h1, _, h2⟩
  · rw [he I] at hH; cases hH
  · refine ⟨⟨_, P I'⟩, ⟨_, P (lincomb x y I I')⟩, h1 I', h1 _, fun i j => ?_⟩
    obtain rfl := Except.ok.inj ((h1 I).symm.trans hH)
    simp only [entry_eq]
    exact h2 x y I I' i j

/-- Doubling all couplings doubles the matrix of the 2 x 2 lattice with a hole. -/
example : (buildHamiltonian exEnv (rectConf 2 2 1 1 1) (lincomb 2 0 exI exI) (basisList 4 1 1)
    ⟨true, true, true, true, true, true⟩).map (fun H => (H.entry 2 9, H.entry 0 0)) = .ok (-18, -5) := by decide +kernel

/-! ### C36 -/

/-- C36. On every configuration and list of determinants for which it can be built, the
Hamiltonian with only the static spin term and the hole repulsion is diagonal and its
diagonal entries are the energies `compute_energy` of the determinants. -/
theorem C36_energy_is_diagonal {K : Type} [Field K] (E : Env) (c : Config) (I : Interactions K) (dets : List (List Nat))
    (r : List Nat) (v : Bool) (H : SpMat K)
    (hH : buildHamiltonian E c I dets ⟨false, true, false, false, false, true⟩ r v = .ok H) (i : Nat) (hi : i < dets.length) :
    computeEnergy E c I dets[i] = .ok (H.entry i i) ∧ ∀ j, j ≠ i → H.entry i j = 0 := by
  obtain ⟨l1, l2, l3, l4, l5, l6, e1, e2, e3, e4, e5, e6, rfl, hin⟩ := (buildHamiltonian_ok_iff E c I dets _ r v H).1 hH
  obtain rfl := Except.ok.inj e1
  obtain rfl := Except.ok.inj e3
  obtain rfl := Except.ok.inj e4
  obtain rfl := Except.ok.inj e5
  obtain ⟨x, h1, h2, h3⟩ := forDets_diag (f := computeStatic E c I) e2 i hi
  obtain ⟨y, g1, g2, g3⟩ := forDets_diag (f := computeRepulsion E c I) e6 i hi
  simp only [entry_eq, cooEntry_append, cooEntry_nil, add_zero, zero_add]
  refine ⟨?_, fun j hj => by rw [h3 j hj, g3 j hj, add_zero]⟩
  rw [h2, g2]
  exact bind_ok h1 (bind_ok g1 rfl)

/-- C36. The other terms have zero diagonal. -/
theorem C36_zero_diagonal {K : Type} [Field K] (E : Env) (c : Config) (nbh nbv nb : Nat) (hc : RectConf c nbh nbv nb)
    (hf : c.Full) (hn : c.nholes + c.nbeta ≤ c.nsites) (I : Interactions K) (B : BoolInteractions)
    (hz : B.bz = false) (hV : B.bV = false) (r : List Nat) (v : Bool)
    (dets : List (List Nat)) (hb : constructBasis c = .ok dets) (H : SpMat K)
    (hH : buildHamiltonian E c I dets B r v = .ok H) (i : Nat) (hi : i < dets.length) : H.entry i i = 0 := by
  rw [C31_matrix_elements E c nbh nbv nb hc hf hn I B r v dets hb H hH i i hi hi, hamEl_diag I _ B hz hV]

example : computeEnergy exEnv (rectConf 2 2 1 2 1) exI [0, 1, 2, 3] = .ok (33 / 2) := by decide +kernel

end TJ
