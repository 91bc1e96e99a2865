/-
Properties C99 and C100: all returned values bound the eigenvalues from above, and improve with the budget.
-/
import Verif.Lemmas.Interlacing
import Verif.Props.Davidson2

namespace TJ

open Matrix Finset

section
variable {K : Type} [Field K] [LinearOrder K] [IsStrictOrderedRing K] {d : Nat}

/-! ### C99 -/

/-- C99. In exact arithmetic, at least `k + 1` eigenvalues (counted with multiplicity) are below the returned value number `k`,
whether the iteration converged or not. The eigenvalues are those of any orthonormal basis of eigenvectors. -/
theorem C99_upper_bounds (L : LinAlg K) (he : L.ExactEigh) (hq : L.ExactQr) (A : Matrix (Fin d) (Fin d) K) (hA : A.IsSymm)
    (nbVal : Nat) (guess : Option (List (Fin d → K))) (stp : Nat) (tol : K) (dimMax : Nat) (r : DavidsonResult K d)
    (h : modifiedDavidson L A nbVal guess stp tol dimMax = .ok r)
    (ho : 1 < min nbVal (if dimMax = 0 then d else dimMax) ∨ (∃ g, guess = some g ∧ Ortho g) ∨ 2 ≤ r.trace.length)
    (mu : Fin d → K) (x : Fin d → Fin d → K) (hx : ∀ j, A *ᵥ x j = mu j • x j) (hxo : ∀ i j, x i ⬝ᵥ x j = if i = j then 1 else 0)
    (k : Nat) (hk : k < r.eigvals.length) : k + 1 ≤ (univ.filter fun j => mu j ≤ r.eigvals[k]).card := by
  obtain ⟨W, rs, hW, hr⟩ := last_ortho hq h ho
  obtain ⟨o1, _, o3⟩ := ritz_exact he hA hW hr
  have o2 := ritz_diagonal he hA hr
  obtain ⟨r1, r2, r3, _, _⟩ := ritz_ok hr
  have hus : ∀ i : Fin (k + 1), (i : Nat) < r.eigvects.length := fun i => by have := i.2; omega
  by_contra hcard
  set S := univ.filter fun j => mu j ≤ r.eigvals[k] with hS
  obtain ⟨lo, hlo, hlt⟩ : ∃ lo, (∀ j, j ∉ S → lo ≤ mu j) ∧ r.eigvals[k] < lo := by
    by_cases hne : (univ.filter fun j => j ∉ S).Nonempty
    · obtain ⟨j0, hj0, hmin⟩ := exists_min_image _ mu hne
      refine ⟨mu j0, fun j hj => hmin j (by simpa using hj), ?_⟩
      have := (mem_filter.1 hj0).2
      simpa [hS] using this
    · refine ⟨r.eigvals[k] + 1, fun j hj => absurd ⟨j, by simpa using hj⟩ hne, by linarith⟩
  have := poincare hA hx hxo S (by omega) lo r.eigvals[k] hlo (fun i => r.eigvects[(i : Nat)]'(hus i))
    (fun i : Fin (k + 1) => r.eigvals[(i : Nat)]'(by have := i.2; omega)) ?_ ?_ ?_
  · exact absurd this (not_le.2 hlt)
  · intro i j
    have := o1 ⟨i, hus i⟩ ⟨j, hus j⟩
    simpa [Fin.ext_iff] using this
  · intro i j
    have := o2 i j (hus i) (hus j) (by have := i.2; omega)
    simpa [Fin.ext_iff] using this
  · intro i
    rcases Nat.eq_or_lt_of_le (Nat.lt_succ_iff.1 i.2) with hi | hi
    · simp only [hi]; exact le_refl _
    · exact List.pairwise_iff_getElem.1 o3 i k _ hk hi

/-- C99 for eigenvalues in increasing order: the returned value number `k` is at least the eigenvalue number `k`. -/
theorem C99_sorted (L : LinAlg K) (he : L.ExactEigh) (hq : L.ExactQr) (A : Matrix (Fin d) (Fin d) K) (hA : A.IsSymm)
    (nbVal : Nat) (guess : Option (List (Fin d → K))) (stp : Nat) (tol : K) (dimMax : Nat) (r : DavidsonResult K d)
    (h : modifiedDavidson L A nbVal guess stp tol dimMax = .ok r)
    (ho : 1 < min nbVal (if dimMax = 0 then d else dimMax) ∨ (∃ g, guess = some g ∧ Ortho g) ∨ 2 ≤ r.trace.length)
    (mu : Fin d → K) (x : Fin d → Fin d → K) (hx : ∀ j, A *ᵥ x j = mu j • x j) (hxo : ∀ i j, x i ⬝ᵥ x j = if i = j then 1 else 0)
    (hmu : ∀ i j, i ≤ j → mu i ≤ mu j) (k : Nat) (hk : k < r.eigvals.length) : ∃ hd : k < d, mu ⟨k, hd⟩ ≤ r.eigvals[k] := by
  have hc := C99_upper_bounds L he hq A hA nbVal guess stp tol dimMax r h ho mu x hx hxo k hk
  have hd : k < d := by
    have := card_le_univ (univ.filter fun j => mu j ≤ r.eigvals[k])
    rw [Fintype.card_fin] at this
    omega
  refine ⟨hd, ?_⟩
  by_contra hlt
  have hsub : (univ.filter fun j => mu j ≤ r.eigvals[k]) ⊆ univ.filter fun j : Fin d => (j : Nat) < k := by
    intro j hj
    rw [mem_filter] at hj ⊢
    refine ⟨hj.1, ?_⟩
    by_contra hkj
    exact hlt ((hmu ⟨k, hd⟩ j (by rw [Fin.le_def]; simpa using hkj)).trans hj.2)
  have h1 := card_le_card hsub
  have h2 : (univ.filter fun j : Fin d => (j : Nat) < k).card = k := by
    rw [Fin.card_filter_val_lt]
    omega
  omega

/-! ### C100 -/

/-- C100. In exact arithmetic, with an orthonormal first search space, none of the returned values increases with the
iteration budget. -/
theorem C100_values_decrease (L : LinAlg K) (he : L.ExactEigh) (hq : L.ExactQr) (A : Matrix (Fin d) (Fin d) K) (hA : A.IsSymm)
    (nbVal : Nat) (guess : Option (List (Fin d → K))) (stp stp' : Nat) (hst : stp ≤ stp') (tol : K) (dimMax : Nat)
    (ho : 1 < min nbVal (if dimMax = 0 then d else dimMax) ∨ ∃ g, guess = some g ∧ Ortho g) (r r' : DavidsonResult K d)
    (h : modifiedDavidson L A nbVal guess stp tol dimMax = .ok r) (h' : modifiedDavidson L A nbVal guess stp' tol dimMax = .ok r')
    (k : Nat) (h0 : k < r.eigvals.length) (h0' : k < r'.eigvals.length) : r'.eigvals[k] ≤ r.eigvals[k] := by
  unfold modifiedDavidson at h h'
  dsimp only at h h'
  have hV : Ortho (if 1 < min nbVal (if dimMax = 0 then d else dimMax) then
      L.qr d (guess.getD (L.rand d (min nbVal (if dimMax = 0 then d else dimMax)))) else
      guess.getD (L.rand d (min nbVal (if dimMax = 0 then d else dimMax)))) := by
    rcases ho with h1 | ⟨g, hg, hg'⟩
    · rw [if_pos h1]; exact (hq d _).2.1
    · by_cases h1 : 1 < min nbVal (if dimMax = 0 then d else dimMax)
      · rw [if_pos h1]; exact (hq d _).2.1
      · rw [if_neg h1, hg]; exact hg'
  have key : ∀ stp stp', stp ≤ stp' → ∀ V last trace r r', Ortho V →
      davidsonLoop L A (min nbVal (if dimMax = 0 then d else dimMax)) tol (if dimMax = 0 then d else dimMax) (stp + 1) V last trace = .ok r →
      davidsonLoop L A (min nbVal (if dimMax = 0 then d else dimMax)) tol (if dimMax = 0 then d else dimMax) (stp' + 1) V last trace = .ok r' →
      ∀ (h0 : k < r.eigvals.length) (h0' : k < r'.eigvals.length), r'.eigvals[k] ≤ r.eigvals[k] := by
    generalize min nbVal (if dimMax = 0 then d else dimMax) = nb
    generalize (if dimMax = 0 then d else dimMax) = dm
    -- one loop run from a search space is below the Ritz value of this search space
    have one : ∀ stp V last trace r vals us rs, Ortho V → ritz L A V nb = .ok (vals, us, rs) →
        davidsonLoop L A nb tol dm (stp + 1) V last trace = .ok r →
        ∀ (h0 : k < vals.length) (h0' : k < r.eigvals.length), r.eigvals[k] ≤ vals[k] := by
      intro stp
      induction stp with
      | zero =>
        intro V last trace r vals us rs hV hr h h0 h0'
        rcases davidsonLoop_succ (tol := tol) (dimMax := dm) (stp := 0) (last := last) (trace := trace) hr with ⟨_, h2⟩ | ⟨_, W', _, h3⟩
        · rw [h2] at h
          obtain rfl := Except.ok.inj h
          exact le_refl _
        · rw [h3] at h
          unfold davidsonLoop at h
          obtain rfl := Except.ok.inj h
          exact le_refl _
      | succ stp ih =>
        intro V last trace r vals us rs hV hr h h0 h0'
        rcases davidsonLoop_succ (tol := tol) (dimMax := dm) (stp := stp + 1) (last := last) (trace := trace) hr with ⟨_, h2⟩ | ⟨_, W', h2, h3⟩
        · rw [h2] at h
          obtain rfl := Except.ok.inj h
          exact le_refl _
        · rw [h3] at h
          rcases hr' : ritz L A W' nb with e | ⟨vals', us', rs'⟩
          · unfold davidsonLoop at h
            rw [hr'] at h
            cases h
          · have hl' : k < vals'.length := by
              rw [(ritz_ok hr').2.1, ← (ritz_ok hr).2.1]; exact h0
            exact (ih W' _ _ r vals' us' rs' (h2.ortho hq) hr' h hl' h0').trans (h2.kth_le he hq hA hV hr hr' k h0 hl')
    intro stp
    induction stp with
    | zero =>
      intro stp' _ V last trace r r' hV h h' h0 h0'
      rcases hr : ritz L A V nb with e | ⟨vals, us, rs⟩
      · unfold davidsonLoop at h
        rw [hr] at h
        cases h
      · have hv : r.eigvals = vals := by
          rcases davidsonLoop_succ (tol := tol) (dimMax := dm) (stp := 0) (last := last) (trace := trace) hr with ⟨_, h2⟩ | ⟨_, W', _, h3⟩
          · rw [h2] at h
            rw [← Except.ok.inj h]
          · rw [h3] at h
            unfold davidsonLoop at h
            rw [← Except.ok.inj h]
        subst hv
        exact one stp' V last trace r' _ us rs hV hr h' h0 h0'
    | succ stp ih =>
      intro stp' hle V last trace r r' hV h h' h0 h0'
      obtain ⟨stp', rfl⟩ : ∃ k, stp' = k + 1 := ⟨stp' - 1, by omega⟩
      rcases hr : ritz L A V nb with e | ⟨vals, us, rs⟩
      · unfold davidsonLoop at h
        rw [hr] at h
        cases h
      · rcases davidsonLoop_succ (tol := tol) (dimMax := dm) (stp := stp + 1) (last := last) (trace := trace) hr with ⟨h1, h2⟩ | ⟨h1, W', h2, h3⟩
        · rcases davidsonLoop_succ (tol := tol) (dimMax := dm) (stp := stp' + 1) (last := last) (trace := trace) hr with ⟨_, g2⟩ | ⟨⟨x, hx, g1⟩, _⟩
          · rw [h2] at h
            rw [g2] at h'
            obtain rfl := Except.ok.inj h
            obtain rfl := Except.ok.inj h'
            exact le_refl _
          · exact absurd (h1 x hx) g1
        · rw [h3] at h h'
          exact ih stp' (by omega) W' _ _ r r' (h2.ortho hq) h h' h0 h0'
  cases stp with
  | zero => cases h
  | succ stp =>
    obtain ⟨stp', rfl⟩ : ∃ k, stp' = k + 1 := ⟨stp' - 1, by omega⟩
    exact key stp stp' (by omega) _ _ _ r r' hV h h' h0 h0'

end

/-- Two states of a matrix of order 4: two eigenvalues are below the second value (C99), and a longer run is not worse (C100). -/
example : ∃ r r', modifiedDavidson realLib exMat 2 none 1 (1 / 1000) 0 = .ok r ∧ modifiedDavidson realLib exMat 2 none 3 (1 / 1000) 0 = .ok r' ∧
    ∃ (h : 1 < r.eigvals.length) (h' : 1 < r'.eigvals.length), r'.eigvals[1] ≤ r.eigvals[1] ∧
      2 ≤ (univ.filter fun j => (realLib.eigh 4 exMat).1 j ≤ r'.eigvals[1]).card := by
  obtain ⟨r, h⟩ := C50_no_failure realLib realLib_qr realLib_rand exMat 2 none 1 (by omega) (1 / 1000) 0 (by simp) (by simp)
  obtain ⟨r', h'⟩ := C50_no_failure realLib realLib_qr realLib_rand exMat 2 none 3 (by omega) (1 / 1000) 0 (by simp) (by simp)
  have len : ∀ stp r, modifiedDavidson realLib exMat 2 none stp (1 / 1000) 0 = .ok r → 1 < r.eigvals.length := by
    intro stp r h
    obtain ⟨W, rs, _, hr⟩ := last_ortho realLib_qr h (Or.inl (by simp))
    rw [(ritz_ok hr).2.1]
    simp
  have h1 := len _ _ h
  have h2 := len _ _ h'
  refine ⟨r, r', h, h', h1, h2, ?_, ?_⟩
  · exact C100_values_decrease realLib realLib_eigh realLib_qr exMat exMat_symm 2 none 1 3 (by omega) _ 0 (Or.inl (by simp)) r r' h h' 1 h1 h2
  · exact C99_upper_bounds realLib realLib_eigh realLib_qr exMat exMat_symm 2 none 3 _ 0 r' h' (Or.inl (by simp)) _ _
      (realLib_eigh 4 exMat exMat_symm).1 (realLib_eigh 4 exMat exMat_symm).2 1 h2

end TJ
