/-
Property C37: the couplings of one determinant.
-/
import Verif.Lemmas.Dynamic
import Verif.Props.Hamiltonian

namespace TJ

/-- C37, part: for every choice of switches the listed determinants are basis determinants,
each listed once, and the value of a determinant is its off-diagonal matrix element, except
that the matrix element of the spin flips is counted twice. An absent determinant has
value 0. The full claim (no doubling) fails as soon as the spin flips are on, see
`C37_spin_flip_doubled`. -/
theorem C37_dynamic_partial {K : Type} [Field K] (h2 : (2 : K) ≠ 0) (E : Env) (c : Config) (nbh nbv nb : Nat)
    (hc : RectConf c nbh nbv nb) (hf : c.Full) (hn : c.nholes + c.nbeta ≤ c.nsites) (I : Interactions K)
    (B : BoolInteractions) (r : List Nat) (v : Bool) (dets : List (List Nat)) (hb : constructBasis c = .ok dets)
    (H F : SpMat K) (hH : buildHamiltonian E c I dets B r v = .ok H)
    (hF : buildHamiltonian E c I dets ⟨false, false, B.bij, false, false, false⟩ r v = .ok F)
    (i : Nat) (hi : i < dets.length) :
    ∃ D, computeDynamic E c I B dets[i] = .ok D ∧ (D.map Prod.fst).Nodup ∧ (∀ p ∈ D, p.1 ∈ dets) ∧
      ∀ j (hj : j < dets.length), j ≠ i → (dictGet D dets[j]).getD 0 = H.entry i j + F.entry i j := by
  obtain ⟨D, d1, d2, d3, d4⟩ := computeDynamic_spec I h2 (hc.tj E) hf hn hb B hi
  refine ⟨D, d1, d2, fun p hp => d3 p.1 (List.mem_map.2 ⟨p, hp, rfl⟩), ?_⟩
  intro j hj hji
  rw [d4 j hj, C31_matrix_elements E c nbh nbv nb hc hf hn I B r v dets hb H hH i j hi hj,
    C31_matrix_elements E c nbh nbv nb hc hf hn I _ r v dets hb F hF i j hi hj]
  congr 1
  have hne : conf c dets[i] ≠ conf c dets[j] := by
    intro h
    rw [constructBasis_eq] at hb
    obtain rfl := Except.ok.inj hb
    have ci := canonical_of_mem_basisList (List.getElem_mem hi)
    have cj := canonical_of_mem_basisList (List.getElem_mem hj)
    have : (basisList c.nsites c.nholes c.nbeta)[i] = (basisList c.nsites c.nholes c.nbeta)[j] := by
      rw [← detOf_occ ci, ← detOf_occ cj]
      exact detOf_congr (fun s hs => congrFun h ⟨s, hs⟩)
    exact hji ((List.Nodup.getElem_inj_iff (nodup_basisList _ _ _)).1 this).symm
  show hamEl I (fun s => gridPos (nbh * nb) s) _ (conf c dets[i]) (conf c dets[j]) = _
  unfold hamEl staticEl repEl
  simp [Ne.symm hne]

/-- C37, the part that holds exactly: without the spin flips the values are the matrix
elements. -/
theorem C37_dynamic_without_flips_partial {K : Type} [Field K] (h2 : (2 : K) ≠ 0) (E : Env) (c : Config) (nbh nbv nb : Nat)
    (hc : RectConf c nbh nbv nb) (hf : c.Full) (hn : c.nholes + c.nbeta ≤ c.nsites) (I : Interactions K)
    (B : BoolInteractions) (hB : B.bij = false) (r : List Nat) (v : Bool) (dets : List (List Nat))
    (hb : constructBasis c = .ok dets) (H : SpMat K) (hH : buildHamiltonian E c I dets B r v = .ok H)
    (i : Nat) (hi : i < dets.length) :
    ∃ D, computeDynamic E c I B dets[i] = .ok D ∧ (D.map Prod.fst).Nodup ∧ (∀ p ∈ D, p.1 ∈ dets) ∧
      ∀ j (hj : j < dets.length), j ≠ i → (dictGet D dets[j]).getD 0 = H.entry i j := by
  obtain ⟨F, hF, _, h0⟩ := C35_all_off E c I dets r v
  have hF' : buildHamiltonian E c I dets ⟨false, false, B.bij, false, false, false⟩ r v = .ok F := by rw [hB]; exact hF
  obtain ⟨D, d1, d2, d3, d4⟩ := C37_dynamic_partial h2 E c nbh nbv nb hc hf hn I B r v dets hb H F hH hF' i hi
  refine ⟨D, d1, d2, d3, fun j hj h => ?_⟩
  rw [d4 j hj h, h0, add_zero]

/-- C37 fails with the spin flips on: two sites, one up and one down electron. The matrix
element is J/2 = 1, the value in the dictionary is J = 2. -/
theorem C37_spin_flip_doubled :
    (computeDynamic exEnv (rectConf 2 1 1 0 1) exI ⟨false, false, true, false, false, false⟩ [0, 1]).map
      (fun D => dictGet D [1, 0]) = .ok (some 2) ∧
    constructBasis (rectConf 2 1 1 0 1) = .ok [[0, 1], [1, 0]] ∧
    (buildHamiltonian exEnv (rectConf 2 1 1 0 1) exI [[0, 1], [1, 0]] ⟨false, false, true, false, false, false⟩).map
      (fun H => H.entry 0 1) = .ok 1 := by
  refine ⟨by decide +kernel, by decide +kernel, by decide +kernel⟩

/-- 2 x 2 lattice with one hole: hopping, next neighbour hopping and singlet displacement
couple this determinant to four others. -/
example : (computeDynamic exEnv (rectConf 2 2 1 1 1) exI ⟨true, false, false, true, true, false⟩ [0, 1, 2, 3]).map
    List.length = .ok 4 := by decide +kernel

example : RectConf (rectConf 2 2 1 1 1) 2 2 1 ∧ (rectConf 2 2 1 1 1).Full := ⟨rectConf_ok _ _ _ _ _ (by decide) (by decide) (by decide),
  by unfold Config.Full; decide⟩

end TJ
