/-
Lemmas about the sweep of `plot_spectrum_dependance`.
-/
import Verif.Model.Dependance
import Verif.Lemmas.Display
import Verif.Props.Initial

namespace TJ

theorem pyRound_mono {x y : ℝ} (h : x ≤ y) : pyRound x ≤ pyRound y := by
  have up : ∀ z, pyRound z ≤ ⌊z⌋ + 1 := by
    intro z; unfold pyRound; split_ifs <;> omega
  have down : ∀ z, ⌊z⌋ ≤ pyRound z := by
    intro z; unfold pyRound; split_ifs <;> omega
  rcases (Int.floor_le_floor h).eq_or_lt with he | hl
  · have hf : Int.fract x ≤ Int.fract y := by
      unfold Int.fract
      rw [he]
      linarith
    unfold pyRound
    rw [he]
    split_ifs <;> first | omega | (exfalso; linarith)
  · have := up x
    have := down y
    omega

theorem round6_mono {x y : ℝ} (h : x ≤ y) : round6 x ≤ round6 y := by
  unfold round6
  have : (pyRound (x * 1000000) : ℝ) ≤ (pyRound (y * 1000000) : ℝ) := by
    exact_mod_cast pyRound_mono (by linarith)
  linarith

/-- The returned values are in increasing order, and there are as many as announced. -/
theorem davidson_sorted {K : Type} [Field K] [LinearOrder K] {d : Nat} {L : LinAlg K} {A : Matrix (Fin d) (Fin d) K} {nbVal : Nat}
    {guess : Option (List (Fin d → K))} {stp : Nat} {tol : K} {dimMax : Nat} {r : DavidsonResult K d}
    (h : modifiedDavidson L A nbVal guess stp tol dimMax = .ok r) :
    r.eigvals.Pairwise (· ≤ ·) ∧ r.eigvals.length = min nbVal (if dimMax = 0 then d else dimMax) ∧
      r.eigvects.length = min nbVal (if dimMax = 0 then d else dimMax) := by
  unfold modifiedDavidson at h
  dsimp only at h
  cases stp with
  | zero => cases h
  | succ stp =>
    obtain ⟨T, W, rs, _, _, _, hr, _, _⟩ := davidsonLoop_result h
    obtain ⟨r1, r2, r3, _⟩ := ritz_ok hr
    refine ⟨?_, r2, r3⟩
    obtain ⟨idx, h1, h2, h3, h4⟩ := ritz_spec L A W _ r1
    rw [h4] at hr
    have hr := Except.ok.inj hr
    simp only [Prod.mk.injEq] at hr
    rw [← hr.1]
    have := h3.2.2.2.1
    rw [List.pairwise_map] at this
    rw [List.pairwise_map]
    refine this.imp ?_
    intro i j hij
    simpa [List.getD_eq_getElem?_getD] using hij

theorem appendPoint_eq {curves : List (Curve ℝ)} {p : Levels} {ind : Nat} (e : ℝ) (h1 : ind < curves.length) (h2 : ind < p.mults.length)
    (h3 : ind < p.degs.length) : appendPoint curves p ind e = .ok (curves.set ind (curves[ind] ++ [(e, p.mults[ind], p.degs[ind])])) := by
  unfold appendPoint
  rw [pyGet_get h1, pyGet_get h2, pyGet_get h3]
  show pySet _ _ _ = _
  unfold pySet
  rw [if_pos h1]

/-- The curve number `k` after the points of one ratio have been added from the level number `s` on. -/
theorem appendFold_spec (p p' : Levels) : ∀ (l : List (ℝ × ℝ)) (s : Nat) (c c' : List (Curve ℝ)), s + l.length ≤ c.length → c'.length = c.length →
    s + l.length ≤ p.mults.length → s + l.length ≤ p.degs.length → s + l.length ≤ p'.mults.length → s + l.length ≤ p'.degs.length →
    ∃ d d', (l.zipIdx s).foldlM (fun (acc : List (Curve ℝ) × List (Curve ℝ)) q => do
        let c ← appendPoint acc.1 p q.2 q.1.1
        let c' ← appendPoint acc.2 p' q.2 q.1.2
        return (c, c')) (c, c') = (.ok (d, d') : Py _) ∧ d.length = c.length ∧ d'.length = c.length ∧
      (∀ k (hk : k < d.length) (hk' : k < c.length), d[k] = if h : s ≤ k ∧ k < s + l.length then
        c[k] ++ [((l.map Prod.fst).getD (k - s) 0, p.mults.getD k "", p.degs.getD k 0)] else c[k]) ∧
      (∀ k (hk : k < d'.length) (hk' : k < c'.length), d'[k] = if h : s ≤ k ∧ k < s + l.length then
        c'[k] ++ [((l.map Prod.snd).getD (k - s) 0, p'.mults.getD k "", p'.degs.getD k 0)] else c'[k])
  | [], s, c, c', _, hc, _, _, _, _ => ⟨c, c', rfl, rfl, hc, by
      constructor <;> (intro k hk hk'; rw [dif_neg]; simp)⟩
  | a :: l, s, c, c', h1, hc, h2, h3, h4, h5 => by
    simp only [List.length_cons] at h1 h2 h3 h4 h5
    obtain ⟨d, d', g1, g2, g3, g4, g5⟩ := appendFold_spec p p' l (s + 1)
      (c.set s (c[s]'(by omega) ++ [(a.1, p.mults[s]'(by omega), p.degs[s]'(by omega))]))
      (c'.set s (c'[s]'(by omega) ++ [(a.2, p'.mults[s]'(by omega), p'.degs[s]'(by omega))]))
      (by simp; omega) (by simp [hc]) (by omega) (by omega) (by omega) (by omega)
    rw [List.length_set] at g2 g3
    refine ⟨d, d', ?_, g2, g3, ?_, ?_⟩
    · rw [List.zipIdx_cons, List.foldlM_cons]
      dsimp only
      rw [appendPoint_eq a.1 (by omega : s < c.length) (by omega : s < p.mults.length) (by omega : s < p.degs.length),
        appendPoint_eq a.2 (by omega : s < c'.length) (by omega : s < p'.mults.length) (by omega : s < p'.degs.length)]
      exact g1
    · intro k hk hk'
      rw [g4 k hk (by simpa using hk')]
      by_cases hks : s = k
      · subst hks
        rw [dif_neg (by omega), dif_pos (by simp)]
        simp [List.getD_eq_getElem?_getD, List.getElem?_eq_getElem (by omega : s < p.mults.length), List.getElem?_eq_getElem (by omega : s < p.degs.length)]
      · by_cases hin : s + 1 ≤ k ∧ k < s + 1 + l.length
        · rw [dif_pos hin, dif_pos (by simp; omega)]
          rw [List.getElem_set_ne hks, List.map_cons, show k - s = (k - (s + 1)) + 1 by omega, List.getD_cons_succ]
        · rw [dif_neg hin, dif_neg (by simp; omega), List.getElem_set_ne hks]
    · intro k hk hk'
      rw [g5 k hk (by simpa using hk')]
      by_cases hks : s = k
      · subst hks
        rw [dif_neg (by omega), dif_pos (by simp)]
        simp [List.getD_eq_getElem?_getD, List.getElem?_eq_getElem (by omega : s < p'.mults.length), List.getElem?_eq_getElem (by omega : s < p'.degs.length)]
      · by_cases hin : s + 1 ≤ k ∧ k < s + 1 + l.length
        · rw [dif_pos hin, dif_pos (by simp; omega)]
          rw [List.getElem_set_ne hks, List.map_cons, show k - s = (k - (s + 1)) + 1 by omega, List.getD_cons_succ]
        · rw [dif_neg hin, dif_neg (by simp; omega), List.getElem_set_ne hks]

/-- The shape of the result of `perform_initial_computations`. -/
theorem performInitial_shape {E : Env} {L : LinAlg ℝ} {swap : List ℝ → Bool} {D : Data ℝ} (hs : D.spinMult = true) {r : InitialResult}
    (h : performInitial E L swap D = .ok r) :
    r.eig.eigvals.Pairwise (· ≤ ·) ∧
      r.eig.eigvals.length = D.diag.count (computeDimension D.config.nsites D.config.nalpha D.config.nbeta) ∧
      r.spins.length = D.diag.count (computeDimension D.config.nsites D.config.nalpha D.config.nbeta) := by
  obtain ⟨h1, h2, ⟨guess, h3, _⟩, h4⟩ := performInitial_ok h
  obtain ⟨d1, d2, d3⟩ := davidson_sorted h3
  have hdim : r.ham.dim = computeDimension D.config.nsites D.config.nalpha D.config.nbeta := by
    rcases buildHamiltonian_lin (K := ℝ) E D.config r.determinants D.bools [] true with ⟨e, he⟩ | ⟨P, hP, _⟩
    · rw [he] at h2; cases h2
    · rw [hP] at h2
      rw [← Except.ok.inj h2]
  unfold Diagonalization.count
  rw [← hdim]
  refine ⟨d1, d2, ?_⟩
  unfold spinNumbers at h4
  rw [if_pos hs] at h4
  rw [← d3]
  exact (mapM_results h4).1

/-- The levels of a run, for the state number `k`. -/
theorem levelsAt_ok {E : Env} {L : LinAlg ℝ} {swap : List ℝ → Bool} {D : Data ℝ} (hs : D.spinMult = true) {p : Levels}
    (h : levelsAt E L swap D = .ok p) : ∃ r, performInitial E L swap D = .ok r ∧
      p.vals.length = D.diag.count (computeDimension D.config.nsites D.config.nalpha D.config.nbeta) ∧ p.mults.length = p.vals.length ∧
      p.degs.length = p.vals.length ∧ p.vals.insertionSort (· ≤ ·) = p.vals ∧ p.vals = r.eig.eigvals.map round6 ∧
      p.mults = r.spins.map SpinNumber.multiplicity ∧ p.degs = (r.eig.eigvals.map round6).map (fun e => (r.eig.eigvals.map round6).count e) := by
  unfold levelsAt at h
  obtain ⟨r, hr, h⟩ := bind_eq_ok.1 h
  obtain rfl := Except.ok.inj h
  obtain ⟨s1, s2, s3⟩ := performInitial_shape hs hr
  refine ⟨r, hr, by simpa using s2, by simp [s2, s3], by simp, ?_, rfl, rfl, rfl⟩
  apply List.Pairwise.insertionSort_eq
  rw [List.pairwise_map]
  exact s1.imp round6_mono

end TJ
