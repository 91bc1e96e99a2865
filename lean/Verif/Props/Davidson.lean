/-
Properties C48-C53 and C67-C70: diagonalisation.
-/
import Verif.Lemmas.Corrections

namespace TJ

open Matrix Finset

/-! ### C48 -/

/-- C48. The lowest values with their columns, also for repeated values. -/
theorem C48_lowest {K : Type} [Field K] [LinearOrder K] {α : Type} (dflt : α) (eigvals : List K) (eigvects : List α)
    (h : eigvects.length = eigvals.length) (nb : Nat) :
    ∃ idx, getLowestsEig eigvals eigvects nb = .ok (idx.map (fun i => eigvals.getD i 0), idx.map (fun i => eigvects.getD i dflt)) ∧
      LowPositions eigvals nb idx := getLowestsEig_spec dflt eigvals eigvects h nb

example : getLowestsEig [(3 : ℚ), 1, 2, 1] ['a', 'b', 'c', 'd'] 3 = .ok ([1, 1, 2], ['b', 'd', 'c']) := by decide +kernel
example : getLowestsEig [(3 : ℚ), 1, 2, 1] ['a', 'b', 'c', 'd'] 1 = .ok ([1], ['b']) := by decide +kernel

/-! ### C49 -/

section
variable {K : Type} [Field K] [LinearOrder K] [IsStrictOrderedRing K] {d : Nat}

/-- C49, part: when at least one correction survives, the returned columns extend the search space
orthonormally, and every correction is in the extended space up to a vector of norm at most
`droptol`. Missing: the case without surviving correction, see `C49_none_survives`. -/
theorem C49_corrections_partial (L : LinAlg K) (hL : L.ExactSqrt) (krylov temp : List (Fin d → K)) (hV : Ortho krylov)
    (droptol eta : K) (h0 : 0 ≤ droptol) (nu : Nat) (hnu : nu ≤ temp.length) :
    ∃ new, getMeaningfulCorrections L krylov temp droptol eta nu = .ok (if new = [] then krylov else new) ∧
      Ortho (krylov ++ new) ∧ new.length ≤ nu ∧
      ∀ k < nu, ∃ e, L.norm e ≤ droptol ∧ InSpan (krylov ++ new) (temp.getD k 0 - e) := by
  obtain ⟨new, n1, n2, n3, n4⟩ := corrections_loop (temp := temp) hL hV (eta := eta) h0 nu hnu
  refine ⟨new, ?_, n2, n3, n4⟩
  unfold getMeaningfulCorrections
  refine bind_ok n1 ?_
  dsimp only
  unfold pySliceLast
  cases new with
  | nil => simp; rfl
  | cons a t =>
    rw [if_neg (by simp), if_neg (by simp)]
    have : (krylov ++ a :: t).drop ((krylov ++ a :: t).length - (a :: t).length) = a :: t := by
      rw [List.length_append, Nat.add_sub_cancel, List.drop_left]
    rw [this]
    rfl

/-- C49 fails when no correction survives: the slice `[:, -0:]` returns the whole search space,
whose columns are not orthogonal to the search space. (Corrections inside the search space do not
survive.) -/
theorem C49_none_survives (L : LinAlg K) (hL : L.ExactSqrt) (krylov temp : List (Fin d → K)) (hV : Ortho krylov)
    (droptol eta : K) (h0 : 0 ≤ droptol) (nu : Nat) (hnu : nu ≤ temp.length) (hk : krylov ≠ [])
    (hin : ∀ k < nu, InSpan krylov (temp.getD k 0)) :
    getMeaningfulCorrections L krylov temp droptol eta nu = .ok krylov ∧ ∃ x ∈ krylov, x ⬝ᵥ x = 1 := by
  refine ⟨?_, ?_⟩
  · have hzero : ∀ t, InSpan krylov t → krylov.foldl (fun t q => (1 - vecMulVec q q) *ᵥ t) t = 0 := by
      intro t ht
      obtain ⟨p1, p2⟩ := project_pass krylov hV t
      set s := krylov.foldl (fun t q => (1 - vecMulVec q q) *ᵥ t) t
      have hs : InSpan krylov s := by
        have : s = t + (-1 : K) • (t - s) := by simp
        rw [this]
        exact inSpan_add ht (inSpan_smul p2 _)
      obtain ⟨y, hy⟩ := hs
      have : s ⬝ᵥ s = 0 := by
        conv_lhs => rw [hy]
        have := combine_dot_left krylov y (∑ i, y i • krylov.get i)
        unfold combine at this
        rw [this, ← hy]
        exact sum_eq_zero fun i _ => by rw [p1 _ (List.get_mem _ _), mul_zero]
      exact dotProduct_self_eq_zero.1 this
    have hloop : ∀ m ≤ nu, (List.range m).foldlM (fun (st : List (Fin d → K) × Nat) corr => (do
        let t0 ← pyGet temp corr
        let t ← projectLoop L eta st.1 2 0 t0
        if droptol < L.norm t then return (st.1 ++ [(L.norm t)⁻¹ • t], st.2 + 1)
        else return st : Py (List (Fin d → K) × Nat))) (krylov, 0) = .ok (krylov, 0) := by
      intro m
      induction m with
      | zero => intro _; rfl
      | succ m ih =>
        intro hm
        refine foldlM_range_succ (ih (by omega)) (bind_ok (a := temp.getD m 0) ?_ (bind_ok (projectLoop_eq _ _ _ _) ?_))
        · rw [pyGet_get (by omega), List.getD_eq_getElem?_getD, List.getElem?_eq_getElem (by omega)]; rfl
        · rw [hzero _ (hin m (by omega)), if_neg (not_lt.2 (norm_zero_le hL h0))]
          rfl
    unfold getMeaningfulCorrections
    exact bind_ok (hloop nu (le_refl _)) rfl
  · obtain ⟨x, hx⟩ := List.exists_mem_of_ne_nil _ hk
    exact ⟨x, hx, ((ortho_iff _).1 hV).1 x hx⟩

/-! ### C50 -/

omit [IsStrictOrderedRing K] in
/-- C50. Whatever the library returns: if the algorithm stops before using its `stp` iterations, or
its convergence test succeeds, all returned pairs satisfy the tolerance; otherwise exactly
`stp` iterations were made. The number of pairs is always `nb_val` (at most `dim_max`). -/
theorem C50_converged (L : LinAlg K) (A : Matrix (Fin d) (Fin d) K) (nbVal : Nat) (guess : Option (List (Fin d → K)))
    (stp : Nat) (tol : K) (dimMax : Nat) (r : DavidsonResult K d) (h : modifiedDavidson L A nbVal guess stp tol dimMax = .ok r) :
    r.eigvals.length = min nbVal (if dimMax = 0 then d else dimMax) ∧ r.eigvects.length = r.eigvals.length ∧
    r.trace.length ≤ stp ∧ (r.trace.length < stp → r.converged = true) ∧
    (r.converged = true ↔ ∀ k (h1 : k < r.eigvals.length) (h2 : k < r.eigvects.length),
      L.norm (r.eigvals[k] • r.eigvects[k] - A *ᵥ r.eigvects[k]) ≤ tol) := by
  unfold modifiedDavidson at h
  dsimp only at h
  cases stp with
  | zero => cases h
  | succ stp =>
    obtain ⟨T, W, rs, t1, t2, t3, t4, t5, t6⟩ := davidsonLoop_result h
    obtain ⟨r1, r2, r3, r4, r5⟩ := ritz_ok t4
    have hiff : r.converged = true ↔ ∀ k (h1 : k < r.eigvals.length) (h2 : k < r.eigvects.length),
        L.norm (r.eigvals[k] • r.eigvects[k] - A *ᵥ r.eigvects[k]) ≤ tol := by
      rw [t5]
      constructor
      · intro hall k h1 h2
        rw [← r5 k h1 h2 (by omega)]
        exact hall _ (List.getElem_mem _)
      · intro hall x hx
        obtain ⟨k, hk, rfl⟩ := List.getElem_of_mem hx
        rw [r5 k (by omega) (by omega) hk]
        exact hall k (by omega) (by omega)
    refine ⟨r2, by omega, ?_, ?_, hiff⟩
    · rw [t1]
      have : T.length ≤ stp := trace_bound h t1
      simpa using this
    · intro hlt
      rw [t1] at hlt
      simp only [List.nil_append, List.length_cons] at hlt
      by_contra hc
      have := t6 (by simpa using hc)
      omega
where
  trace_bound {L : LinAlg K} {A : Matrix (Fin d) (Fin d) K} {nb : Nat} {tol : K} {dimMax : Nat} :
      ∀ {stp : Nat} {V : List (Fin d → K)} {last : Option (List K × List (Fin d → K))} {trace : List (List (Fin d → K))}
        {r : DavidsonResult K d} {T}, davidsonLoop L A nb tol dimMax (stp + 1) V last trace = .ok r → r.trace = trace ++ V :: T →
        T.length ≤ stp
    | stp, V, last, trace, r, T, h, ht => by
      rcases hr : ritz L A V nb with e | ⟨vals, us, rs⟩
      · unfold davidsonLoop at h
        rw [hr] at h
        cases h
      · rcases davidsonLoop_succ (tol := tol) (dimMax := dimMax) (stp := stp) (last := last) (trace := trace) hr with ⟨_, h2⟩ | ⟨_, W', _, h3⟩
        · rw [h2] at h
          obtain rfl := Except.ok.inj h
          simp only [List.append_cancel_left_eq, List.cons.injEq, true_and] at ht
          rw [← ht]; simp
        · rw [h3] at h
          match stp, h with
          | 0, h =>
            unfold davidsonLoop at h
            obtain rfl := Except.ok.inj h
            simp only [List.append_cancel_left_eq, List.cons.injEq, true_and] at ht
            rw [← ht]; simp
          | stp + 1, h =>
            obtain ⟨T', _, _, t1, _⟩ := davidsonLoop_result h
            have := trace_bound h t1
            rw [t1, List.append_assoc, List.append_cancel_left_eq] at ht
            simp only [List.singleton_append, List.cons.injEq, true_and] at ht
            rw [← ht, List.length_cons]
            omega

omit [IsStrictOrderedRing K] in
/-- C50. The algorithm does not fail with at least one iteration, a reduced QR decomposition and
`nb_val` initial vectors in a space of at least this dimension. -/
theorem C50_no_failure (L : LinAlg K) (hq : L.ExactQr) (hrand : ∀ d m, (L.rand d m).length = m) (A : Matrix (Fin d) (Fin d) K)
    (nbVal : Nat) (guess : Option (List (Fin d → K))) (stp : Nat) (hs : 1 ≤ stp) (tol : K) (dimMax : Nat)
    (hd : min nbVal (if dimMax = 0 then d else dimMax) ≤ d)
    (hg : ∀ g, guess = some g → g.length = min nbVal (if dimMax = 0 then d else dimMax)) :
    ∃ r, modifiedDavidson L A nbVal guess stp tol dimMax = .ok r := by
  unfold modifiedDavidson
  dsimp only
  obtain ⟨stp, rfl⟩ : ∃ k, stp = k + 1 := ⟨stp - 1, by omega⟩
  refine davidsonLoop_ok hq hd ?_
  have hlen : (guess.getD (L.rand d (min nbVal (if dimMax = 0 then d else dimMax)))).length = min nbVal (if dimMax = 0 then d else dimMax) := by
    cases guess with
    | none => exact hrand _ _
    | some g => exact hg g rfl
  by_cases h1 : 1 < min nbVal (if dimMax = 0 then d else dimMax)
  · rw [if_pos h1, (hq d _).1, hlen]
    omega
  · rw [if_neg h1, hlen]

omit [IsStrictOrderedRing K] in
/-- C50. Without iterations the function fails: `eigvals_temp` is not defined. -/
theorem C50_no_iterations (L : LinAlg K) (A : Matrix (Fin d) (Fin d) K) (nbVal : Nat) (guess : Option (List (Fin d → K)))
    (tol : K) (dimMax : Nat) : modifiedDavidson L A nbVal guess 0 tol dimMax = .error .nameError := rfl

/-! ### C51 -/

/-- The search space of the last iteration is orthonormal, except possibly in the first
iteration with one vector. -/
theorem last_ortho {L : LinAlg K} (hq : L.ExactQr) {A : Matrix (Fin d) (Fin d) K} {nbVal : Nat} {guess : Option (List (Fin d → K))}
    {stp : Nat} {tol : K} {dimMax : Nat} {r : DavidsonResult K d} (h : modifiedDavidson L A nbVal guess stp tol dimMax = .ok r)
    (ho : 1 < min nbVal (if dimMax = 0 then d else dimMax) ∨ (∃ g, guess = some g ∧ Ortho g) ∨ 2 ≤ r.trace.length) :
    ∃ W rs, Ortho W ∧ ritz L A W (min nbVal (if dimMax = 0 then d else dimMax)) = .ok (r.eigvals, r.eigvects, rs) := by
  unfold modifiedDavidson at h
  dsimp only at h
  cases stp with
  | zero => cases h
  | succ stp =>
    obtain ⟨T, W, rs, t1, t2, t3, t4, t5, t6⟩ := davidsonLoop_result h
    refine ⟨W, rs, ?_, t4⟩
    have hW : W ∈ _ := List.mem_of_getLast? t2
    by_cases hT : T = []
    · subst hT
      simp only [List.getLast?_singleton, Option.some.injEq] at t2
      rcases ho with h1 | ⟨g, hg, hg'⟩ | h1
      · rw [← t2, if_pos h1]
        exact (hq d _).2.1
      · rw [← t2]
        by_cases h1 : 1 < min nbVal (if dimMax = 0 then d else dimMax)
        · rw [if_pos h1]; exact (hq d _).2.1
        · rw [if_neg h1, hg]; exact hg'
      · rw [t1] at h1
        simp at h1
    · rcases List.eq_nil_or_concat T with rfl | ⟨T', z, rfl⟩
      · exact absurd rfl hT
      · rw [List.concat_eq_append] at t2 t3
        rw [← List.cons_append, List.getLast?_append, List.getLast?_singleton] at t2
        simp only [Option.some_or, Option.some.injEq] at t2
        subst t2
        have : ∃ y, NextSpace L A (min nbVal (if dimMax = 0 then d else dimMax)) tol (if dimMax = 0 then d else dimMax) y z := by
          rw [← List.cons_append, List.isChain_append] at t3
          exact ⟨_, t3.2.2 _ (List.getLast?_eq_some_getLast (List.cons_ne_nil _ _)) z rfl⟩
        obtain ⟨y, hy⟩ := this
        exact hy.ortho hq

/-- C51. For a symmetric matrix, in exact arithmetic, with an orthonormal last search space, the
returned vectors are orthonormal, the returned values are in increasing order and are the Rayleigh quotients
of the returned vectors; hence they are within the bounds of the Rayleigh quotient. -/
theorem C51_ritz_bounds (L : LinAlg K) (he : L.ExactEigh) (hq : L.ExactQr) (A : Matrix (Fin d) (Fin d) K) (hA : A.IsSymm)
    (nbVal : Nat) (guess : Option (List (Fin d → K))) (stp : Nat) (tol : K) (dimMax : Nat) (r : DavidsonResult K d)
    (h : modifiedDavidson L A nbVal guess stp tol dimMax = .ok r)
    (ho : 1 < min nbVal (if dimMax = 0 then d else dimMax) ∨ (∃ g, guess = some g ∧ Ortho g) ∨ 2 ≤ r.trace.length) :
    Ortho r.eigvects ∧ r.eigvals.Pairwise (· ≤ ·) ∧
    (∀ k (h1 : k < r.eigvals.length) (h2 : k < r.eigvects.length), r.eigvects[k] ⬝ᵥ (A *ᵥ r.eigvects[k]) = r.eigvals[k]) ∧
    ∀ lo hi, (∀ x : Fin d → K, lo * (x ⬝ᵥ x) ≤ x ⬝ᵥ (A *ᵥ x) ∧ x ⬝ᵥ (A *ᵥ x) ≤ hi * (x ⬝ᵥ x)) →
      ∀ lam ∈ r.eigvals, lo ≤ lam ∧ lam ≤ hi := by
  obtain ⟨W, rs, hW, hr⟩ := last_ortho hq h ho
  obtain ⟨o1, o2, o3⟩ := ritz_exact he hA hW hr
  obtain ⟨r1, r2, r3, _, _⟩ := ritz_ok hr
  refine ⟨o1, o3, o2, ?_⟩
  intro lo hi hb lam hl
  obtain ⟨k, hk, rfl⟩ := List.getElem_of_mem hl
  have hk' : k < r.eigvects.length := by omega
  have h1 : r.eigvects[k] ⬝ᵥ r.eigvects[k] = 1 := ((ortho_iff _).1 o1).1 _ (List.getElem_mem _)
  have := hb r.eigvects[k]
  rw [o2 k hk hk', h1, mul_one, mul_one] at this
  exact this

/-! ### C52 -/

omit [IsStrictOrderedRing K] in
/-- C52. The number of columns of the search space is bounded in all iterations. -/
theorem C52_search_space_bounded (L : LinAlg K) (hq : L.ExactQr) (hrand : ∀ d m, (L.rand d m).length = m) (A : Matrix (Fin d) (Fin d) K)
    (hd : 1 ≤ d) (nbVal : Nat) (guess : Option (List (Fin d → K))) (stp : Nat) (tol : K) (dimMax : Nat)
    (hg : ∀ g, guess = some g → g.length = min nbVal (if dimMax = 0 then d else dimMax))
    (r : DavidsonResult K d) (h : modifiedDavidson L A nbVal guess stp tol dimMax = .ok r) :
    ∀ V ∈ r.trace, V.length ≤ min d (max (if dimMax = 0 then d else dimMax) (2 * nbVal)) := by
  unfold modifiedDavidson at h
  dsimp only at h
  cases stp with
  | zero => cases h
  | succ stp =>
    obtain ⟨T, W, rs, t1, t2, t3, t4, t5, t6⟩ := davidsonLoop_result h
    have hlen : (guess.getD (L.rand d (min nbVal (if dimMax = 0 then d else dimMax)))).length = min nbVal (if dimMax = 0 then d else dimMax) := by
      cases guess with
      | none => exact hrand _ _
      | some g => exact hg g rfl
    intro V hV
    rw [t1, List.nil_append] at hV
    rcases mem_chain t3 V hV with rfl | ⟨y, _, hy⟩
    · by_cases h1 : 1 < min nbVal (if dimMax = 0 then d else dimMax)
      · rw [if_pos h1, (hq d _).1, hlen]
        omega
      · rw [if_neg h1, hlen]
        omega
    · have := (hy.length hq).2
      omega

/-! ### C67: the lowest value never increases -/

/-- C67. In exact arithmetic, with an orthonormal first search space, the lowest returned value does not
increase with the iteration budget. -/
theorem C67_lowest_value_decreases (L : LinAlg K) (he : L.ExactEigh) (hq : L.ExactQr) (A : Matrix (Fin d) (Fin d) K) (hA : A.IsSymm)
    (nbVal : Nat) (guess : Option (List (Fin d → K))) (stp stp' : Nat) (hst : stp ≤ stp') (tol : K) (dimMax : Nat)
    (ho : 1 < min nbVal (if dimMax = 0 then d else dimMax) ∨ ∃ g, guess = some g ∧ Ortho g) (r r' : DavidsonResult K d)
    (h : modifiedDavidson L A nbVal guess stp tol dimMax = .ok r) (h' : modifiedDavidson L A nbVal guess stp' tol dimMax = .ok r')
    (h0 : 0 < r.eigvals.length) (h0' : 0 < r'.eigvals.length) : r'.eigvals[0] ≤ r.eigvals[0] := by
  unfold modifiedDavidson at h h'
  dsimp only at h h'
  have hV : Ortho (if 1 < min nbVal (if dimMax = 0 then d else dimMax) then
      L.qr d (guess.getD (L.rand d (min nbVal (if dimMax = 0 then d else dimMax)))) else
      guess.getD (L.rand d (min nbVal (if dimMax = 0 then d else dimMax)))) := by
    rcases ho with h1 | ⟨g, hg, hg'⟩
    · rw [if_pos h1]; exact (hq d _).2.1
    · by_cases h1 : 1 < min nbVal (if dimMax = 0 then d else dimMax)
      · rw [if_pos h1]; exact (hq d _).2.1
      · rw [if_neg h1, hg]; exact hg'
  have key : ∀ stp stp', stp ≤ stp' → ∀ V last trace r r', Ortho V →
      davidsonLoop L A (min nbVal (if dimMax = 0 then d else dimMax)) tol (if dimMax = 0 then d else dimMax) (stp + 1) V last trace = .ok r →
      davidsonLoop L A (min nbVal (if dimMax = 0 then d else dimMax)) tol (if dimMax = 0 then d else dimMax) (stp' + 1) V last trace = .ok r' →
      ∀ (h0 : 0 < r.eigvals.length) (h0' : 0 < r'.eigvals.length), r'.eigvals[0] ≤ r.eigvals[0] := by
    generalize min nbVal (if dimMax = 0 then d else dimMax) = nb
    generalize (if dimMax = 0 then d else dimMax) = dm
    -- one loop run from a search space is below the Ritz value of this search space
    have one : ∀ stp V last trace r vals us rs, Ortho V → ritz L A V nb = .ok (vals, us, rs) →
        davidsonLoop L A nb tol dm (stp + 1) V last trace = .ok r →
        ∀ (h0 : 0 < vals.length) (h0' : 0 < r.eigvals.length), r.eigvals[0] ≤ vals[0] := by
      intro stp
      induction stp with
      | zero =>
        intro V last trace r vals us rs hV hr h h0 h0'
        rcases davidsonLoop_succ (tol := tol) (dimMax := dm) (stp := 0) (last := last) (trace := trace) hr with ⟨_, h2⟩ | ⟨_, W', _, h3⟩
        · rw [h2] at h
          obtain rfl := Except.ok.inj h
          exact le_refl _
        · rw [h3] at h
          unfold davidsonLoop at h
          obtain rfl := Except.ok.inj h
          exact le_refl _
      | succ stp ih =>
        intro V last trace r vals us rs hV hr h h0 h0'
        rcases davidsonLoop_succ (tol := tol) (dimMax := dm) (stp := stp + 1) (last := last) (trace := trace) hr with ⟨_, h2⟩ | ⟨_, W', h2, h3⟩
        · rw [h2] at h
          obtain rfl := Except.ok.inj h
          exact le_refl _
        · rw [h3] at h
          rcases hr' : ritz L A W' nb with e | ⟨vals', us', rs'⟩
          · unfold davidsonLoop at h
            rw [hr'] at h
            cases h
          · have hl' : 0 < vals'.length := by
              rw [(ritz_ok hr').2.1, ← (ritz_ok hr).2.1]; exact h0
            exact (ih W' _ _ r vals' us' rs' (h2.ortho hq) hr' h hl' h0').trans (h2.lowest_le he hq hA hV hr hr' h0 hl')
    intro stp
    induction stp with
    | zero =>
      intro stp' _ V last trace r r' hV h h' h0 h0'
      rcases hr : ritz L A V nb with e | ⟨vals, us, rs⟩
      · unfold davidsonLoop at h
        rw [hr] at h
        cases h
      · have hv : r.eigvals = vals := by
          rcases davidsonLoop_succ (tol := tol) (dimMax := dm) (stp := 0) (last := last) (trace := trace) hr with ⟨_, h2⟩ | ⟨_, W', _, h3⟩
          · rw [h2] at h
            rw [← Except.ok.inj h]
          · rw [h3] at h
            unfold davidsonLoop at h
            rw [← Except.ok.inj h]
        subst hv
        exact one stp' V last trace r' _ us rs hV hr h' h0 h0'
    | succ stp ih =>
      intro stp' hle V last trace r r' hV h h' h0 h0'
      obtain ⟨stp', rfl⟩ : ∃ k, stp' = k + 1 := ⟨stp' - 1, by omega⟩
      rcases hr : ritz L A V nb with e | ⟨vals, us, rs⟩
      · unfold davidsonLoop at h
        rw [hr] at h
        cases h
      · rcases davidsonLoop_succ (tol := tol) (dimMax := dm) (stp := stp + 1) (last := last) (trace := trace) hr with ⟨h1, h2⟩ | ⟨h1, W', h2, h3⟩
        · rcases davidsonLoop_succ (tol := tol) (dimMax := dm) (stp := stp' + 1) (last := last) (trace := trace) hr with ⟨_, g2⟩ | ⟨⟨x, hx, g1⟩, _⟩
          · rw [h2] at h
            rw [g2] at h'
            obtain rfl := Except.ok.inj h
            obtain rfl := Except.ok.inj h'
            exact le_refl _
          · exact absurd (h1 x hx) g1
        · rw [h3] at h h'
          exact ih stp' (by omega) W' _ _ r r' (h2.ortho hq) h h' h0 h0'
  cases stp with
  | zero => cases h
  | succ stp =>
    obtain ⟨stp', rfl⟩ : ∃ k, stp' = k + 1 := ⟨stp' - 1, by omega⟩
    exact key stp stp' (by omega) _ _ _ r r' hV h h' h0 h0'

/-! ### C68: converged values are close to eigenvalues -/

/-- C68. In exact arithmetic, if the convergence test succeeds, every returned value is within `tol`
of an eigenvalue of the matrix. -/
theorem C68_near_eigenvalue (L : LinAlg K) (hL : L.ExactSqrt) (he : L.ExactEigh) (hq : L.ExactQr) (A : Matrix (Fin d) (Fin d) K)
    (hA : A.IsSymm) (nbVal : Nat) (guess : Option (List (Fin d → K))) (stp : Nat) (tol : K) (dimMax : Nat)
    (r : DavidsonResult K d) (h : modifiedDavidson L A nbVal guess stp tol dimMax = .ok r) (hc : r.converged = true)
    (ho : 1 < min nbVal (if dimMax = 0 then d else dimMax) ∨ (∃ g, guess = some g ∧ Ortho g) ∨ 2 ≤ r.trace.length) :
    ∀ lam ∈ r.eigvals, ∃ mu, ∃ x : Fin d → K, x ≠ 0 ∧ A *ᵥ x = mu • x ∧ |mu - lam| ≤ tol := by
  obtain ⟨c1, c2, _, _, c5⟩ := C50_converged L A nbVal guess stp tol dimMax r h
  obtain ⟨o1, _, _, _⟩ := C51_ritz_bounds L he hq A hA nbVal guess stp tol dimMax r h ho
  intro lam hl
  obtain ⟨k, hk, rfl⟩ := List.getElem_of_mem hl
  have hk' : k < r.eigvects.length := by omega
  obtain ⟨t0, t1⟩ := (norm_le_iff hL _ _).1 (c5.1 hc k hk hk')
  obtain ⟨e1, e2⟩ := he d A hA
  have hu : r.eigvects[k] ⬝ᵥ r.eigvects[k] = 1 := ((ortho_iff _).1 o1).1 _ (List.getElem_mem _)
  obtain ⟨j, hj⟩ := near_eigenvalue hA e1 e2 _ hu _ tol t0 t1
  refine ⟨_, _, ?_, e1 j, hj⟩
  intro h0
  have := e2 j j
  rw [h0] at this
  simp at this

/-! ### C69: guaranteed convergence -/

/-- C69. In exact arithmetic, if `dim_max ≥ dim + nb_val` the search space is expanded in each
iteration and the algorithm converges once `nb_val` times the budget reaches the dimension. -/
theorem C69_converges (L : LinAlg K) (hL : L.ExactSqrt) (he : L.ExactEigh) (hq : L.ExactQr) (hrand : ∀ d m, (L.rand d m).length = m)
    (A : Matrix (Fin d) (Fin d) K) (hA : A.IsSymm) (nbVal : Nat) (stp : Nat) (tol : K) (ht : 0 ≤ tol) (dimMax : Nat)
    (hm : d + nbVal ≤ dimMax) (hnb : 2 ≤ nbVal) (hnd : nbVal ≤ d) (hs : d ≤ nbVal * stp) :
    ∃ r, modifiedDavidson L A nbVal none stp tol dimMax = .ok r ∧ r.converged = true := by
  have hdm : (if dimMax = 0 then d else dimMax) = dimMax := if_neg (by omega)
  have hmin : min nbVal dimMax = nbVal := by omega
  unfold modifiedDavidson
  dsimp only
  rw [hdm, hmin, if_pos (by omega)]
  have key : ∀ stp V last trace, Ortho V → nbVal ≤ V.length → V.length ≤ d → d ≤ V.length + nbVal * stp →
      ∃ r, davidsonLoop L A nbVal tol dimMax (stp + 1) V last trace = .ok r ∧ r.converged = true := by
    intro stp
    induction stp with
    | zero =>
      intro V last trace hV h1 h2 h3
      obtain ⟨idx, _, _, _, hr⟩ := ritz_spec L A V nbVal h1
      have hz := full_space he hA hV (by omega) hr
      rcases davidsonLoop_succ (tol := tol) (dimMax := dimMax) (stp := 0) (last := last) (trace := trace) hr with ⟨_, g⟩ | ⟨⟨x, hx, g⟩, _⟩
      · exact ⟨_, g, rfl⟩
      · rw [hz x hx] at g
        exact absurd (norm_zero_le hL ht) g
    | succ stp ih =>
      intro V last trace hV h1 h2 h3
      obtain ⟨idx, _, _, _, hr⟩ := ritz_spec L A V nbVal h1
      rcases davidsonLoop_succ (tol := tol) (dimMax := dimMax) (stp := stp + 1) (last := last) (trace := trace) hr with ⟨_, g⟩ | ⟨_, W', g2, g3⟩
      · exact ⟨_, g, rfl⟩
      · rw [g3]
        have ho := g2.ortho hq
        have hlen : W'.length = min d (V.length + nbVal) := by
          obtain ⟨_, _, _, corr, _, _, ⟨hc, _⟩, rfl⟩ := g2
          rw [if_neg (by omega), (hq d _).1, List.length_append, hc]
        refine ih W' _ _ ho (by omega) (by omega) ?_
        rw [hlen]
        have : nbVal * (stp + 1) = nbVal * stp + nbVal := by ring
        omega
  obtain ⟨stp, rfl⟩ : ∃ k, stp = k + 1 := ⟨stp - 1, by
    rcases Nat.eq_zero_or_pos stp with h | h
    · subst h; omega
    · omega⟩
  have hl : (L.qr d (Option.getD none (L.rand d nbVal))).length = nbVal := by
    rw [(hq d _).1, Option.getD_none, hrand]; omega
  refine key stp _ _ _ (hq d _).2.1 (by omega) (by omega) ?_
  rw [hl]
  have : nbVal * (stp + 1) = nbVal * stp + nbVal := by ring
  omega

end

end TJ
