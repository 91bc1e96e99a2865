/-
Property C37, exact condition: for which determinants the dictionary of the dynamic effects holds the matrix elements of the Hamiltonian.
-/
import Verif.Props.Dynamic
import Verif.Lemmas.Sector
import Verif.Lemmas.SumRule
import Verif.Lemmas.SpinPos

namespace TJ

open Finset

theorem exch_pair {n : Nat} {σ : Conf n} {a b a' b' : Fin n} (h : a < b) (h' : a' < b') (hne : σ a ≠ σ b)
    (e : exch σ a b = exch σ a' b') : a' = a ∧ b' = b := by
  have moved : ∀ {x y s : Fin n}, exch σ x y s ≠ σ s → s = x ∨ s = y := by
    intro x y s hs
    by_contra hc
    push Not at hc
    exact hs (by unfold exch; rw [Equiv.swap_apply_of_ne_of_ne hc.1 hc.2])
  have ha : a = a' ∨ a = b' := moved (by rw [← e]; unfold exch; rw [Equiv.swap_apply_left]; exact hne.symm)
  have hb : b = a' ∨ b = b' := moved (by rw [← e]; unfold exch; rw [Equiv.swap_apply_right]; exact hne)
  rcases ha with rfl | rfl <;> rcases hb with rfl | rfl
  · exact absurd h (lt_irrefl _)
  · exact ⟨rfl, rfl⟩
  · exact absurd (h.trans h') (lt_irrefl _)
  · exact absurd h (lt_irrefl _)

/-- The matrix element of the flip of one bond. -/
theorem flipEl_exch {K : Type} [Field K] {n : Nat} (I : Interactions K) (pos : Fin n → Pt) (σ : Conf n) (a b : Fin n) (h : a < b)
    (h1 : Near (pos a) (pos b)) (h2 : σ a ≠ .hole) (h3 : σ b ≠ .hole) (hne : σ a ≠ σ b) :
    flipEl I pos σ (exch σ a b) = Jeff I pos σ a b / 2 := by
  unfold flipEl
  rw [sum_eq_single a, sum_eq_single b, if_pos ⟨h, h1, h2, h3, hne, rfl⟩]
  · intro b' _ hb'
    refine if_neg ?_
    rintro ⟨g, _, _, _, _, e⟩
    exact hb' (exch_pair h g hne e).2
  · intro hc; exact absurd (mem_univ _) hc
  · intro a' _ ha'
    refine sum_eq_zero fun b' _ => if_neg ?_
    rintro ⟨g, _, _, _, _, e⟩
    exact ha' (exch_pair h g hne e).1
  · intro hc; exact absurd (mem_univ _) hc

/-- C37. The dictionary of a determinant holds its off-diagonal matrix elements exactly when the spin flips are off or the coupling of
every bond of this determinant with opposite spins vanishes. -/
theorem C37_right_iff {K : Type} [Field K] (h2 : (2 : K) ≠ 0) (E : Env) (c : Config) (nbh nbv nb : Nat)
    (hc : RectConf c nbh nbv nb) (hf : c.Full) (hn : c.nholes + c.nbeta ≤ c.nsites) (I : Interactions K)
    (B : BoolInteractions) (r : List Nat) (v : Bool) (dets : List (List Nat)) (hb : constructBasis c = .ok dets)
    (H : SpMat K) (hH : buildHamiltonian E c I dets B r v = .ok H) (i : Nat) (hi : i < dets.length) :
    (∃ D, computeDynamic E c I B dets[i] = .ok D ∧ (D.map Prod.fst).Nodup ∧ (∀ p ∈ D, p.1 ∈ dets) ∧
      ∀ j (hj : j < dets.length), j ≠ i → (dictGet D dets[j]).getD 0 = H.entry i j) ↔
    (B.bij = false ∨ ∀ a b : Fin c.nsites, a < b → Near (gridPos (nbh * nb) a) (gridPos (nbh * nb) b) → conf c dets[i] a ≠ .hole →
      conf c dets[i] b ≠ .hole → conf c dets[i] a ≠ conf c dets[i] b → Jeff I (fun s => gridPos (nbh * nb) s) (conf c dets[i]) a b = 0) := by
  obtain ⟨F, hF, _⟩ := buildHamiltonian_spec I (hc.tj E) hf hn hb ⟨false, false, B.bij, false, false, false⟩ r v
  obtain ⟨D, d1, d2, d3, d4⟩ := C37_dynamic_partial h2 E c nbh nbv nb hc hf hn I B r v dets hb H F hH hF i hi
  have hFe := C31_matrix_elements E c nbh nbv nb hc hf hn I _ r v dets hb F hF i
  have hel : ∀ j (hj : j < dets.length), B.bij = true → F.entry i j = flipEl I (fun s => gridPos (nbh * nb) s) (conf c dets[i]) (conf c dets[j]) := by
    intro j hj hB
    rw [hFe j hi hj]
    unfold hamEl
    simp [hB]
  constructor
  · rintro ⟨D', e1, _, _, e4⟩
    obtain rfl := Except.ok.inj (d1.symm.trans e1)
    rcases Bool.eq_false_or_eq_true B.bij with hB | hB
    · refine .inr fun a b hab hnear ha hb' hne => ?_
      have hcan := canonical_getElem hb i hi
      obtain ⟨j, hj, hj2⟩ := exists_conf hb hn (σ := exch (conf c dets[i]) a b)
        ((count_exch _ _ _ _).trans (count_conf_hole hn hcan.1)) ((count_exch _ _ _ _).trans (count_conf_down hn hcan.1))
      have hji : j ≠ i := by
        rintro rfl
        exact exch_ne_self hne hj2
      have h5 := d4 j hj hji
      rw [e4 j hj hji, hel j hj hB, hj2, flipEl_exch I _ _ a b hab hnear ha hb' hne] at h5
      have h6 : Jeff I (fun s : Fin c.nsites => gridPos (nbh * nb) s) (conf c dets[i]) a b / 2 = 0 := left_eq_add.1 h5
      rcases div_eq_zero_iff.1 h6 with h7 | h7
      · exact h7
      · exact absurd h7 h2
    · exact .inl hB
  · intro h
    refine ⟨D, d1, d2, d3, fun j hj hji => ?_⟩
    rw [d4 j hj hji]
    have : F.entry i j = 0 := by
      rcases Bool.eq_false_or_eq_true B.bij with hB | hB
      · rw [hel j hj hB]
        unfold flipEl
        refine sum_eq_zero fun a _ => sum_eq_zero fun b _ => ?_
        split_ifs with g
        · rcases h with h | h
          · rw [hB] at h; cases h
          · rw [h a b g.1 g.2.1 g.2.2.1 g.2.2.2.1 g.2.2.2.2.1, zero_div]
        · rfl
      · rw [hFe j hi hj]
        unfold hamEl
        simp [hB]
    rw [this, add_zero]

/-- Two electrons with opposite spins on the two ends of a row of three sites: no bond, the dictionary is right with the flips on. -/
example : ∃ D, computeDynamic exEnv (rectConf 3 1 1 1 1) exI ⟨true, true, true, true, true, true⟩ [1, 0, 2] = .ok D ∧ D ≠ [] := by
  refine ⟨_, rfl, ?_⟩
  decide +kernel

example : ∀ a b : Fin 3, a < b → Near (gridPos (3 * 1) a) (gridPos (3 * 1) b) → conf (rectConf 3 1 1 1 1) [1, 0, 2] a ≠ .hole →
    conf (rectConf 3 1 1 1 1) [1, 0, 2] b ≠ .hole → conf (rectConf 3 1 1 1 1) [1, 0, 2] a ≠ conf (rectConf 3 1 1 1 1) [1, 0, 2] b →
    Jeff exI (fun s : Fin (rectConf 3 1 1 1 1).nsites => gridPos (3 * 1) s) (conf (rectConf 3 1 1 1 1) [1, 0, 2]) a b = 0 := by
  have h : ∀ a b : Fin 3, a < b → Near (gridPos (3 * 1) a) (gridPos (3 * 1) b) → occ 1 1 [1, 0, 2] a ≠ .hole →
    occ 1 1 [1, 0, 2] b = .hole := by decide +kernel
  intro a b h1 h2 h3 h4
  exact absurd (h a b h1 h2 h3) h4

end TJ
