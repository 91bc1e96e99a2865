/-
Property C67, continued: the lowest value is not above the energy of the initial guess.
-/
import Verif.Props.Davidson
import Verif.Lemmas.Corrections
import Verif.Lemmas.ExactLib

namespace TJ

open Matrix Finset

section
variable {K : Type} [Field K] [LinearOrder K] [IsStrictOrderedRing K] {d : Nat}

/-- Along a chain of search spaces the lowest Ritz value stays below all Rayleigh quotients of the first one. -/
theorem chain_lowest {L : LinAlg K} (he : L.ExactEigh) (hq : L.ExactQr) {A : Matrix (Fin d) (Fin d) K} (hA : A.IsSymm) {nb : Nat} {tol : K} {dimMax : Nat}
    {W : List (Fin d → K)} {vals : List K} {us rs : List (Fin d → K)} (hr : ritz L A W nb = .ok (vals, us, rs)) (h0 : 0 < vals.length) :
    ∀ (T : List (List (Fin d → K))) (V : List (Fin d → K)), Ortho V → (V :: T).getLast? = some W → (V :: T).IsChain (NextSpace L A nb tol dimMax) →
      ∃ v0 vals' us' rs', ritz L A V nb = .ok (v0 :: vals', us', rs') ∧ vals[0] ≤ v0
  | [], V, _, hl, _ => by
    obtain rfl := Option.some.inj hl
    cases vals with
    | nil => simp at h0
    | cons v vals => exact ⟨v, vals, us, rs, hr, le_refl _⟩
  | V' :: T, V, hV, hl, hc => by
    obtain ⟨c1, c2⟩ := List.isChain_cons_cons.1 hc
    have hV' := c1.ortho hq
    obtain ⟨v0, vals', us', rs', k1, k2⟩ := chain_lowest he hq hA hr h0 T V' hV' (by rw [List.getLast?_cons_cons] at hl; exact hl) c2
    obtain ⟨vals1, us1, rs1, corr, h1, _⟩ := id c1
    have hlen : vals1.length = (v0 :: vals').length := by rw [(ritz_ok h1).2.1, (ritz_ok k1).2.1]
    cases vals1 with
    | nil => simp at hlen
    | cons v1 vals1 =>
      have := c1.lowest_le he hq hA hV h1 k1 (by simp) (by simp)
      exact ⟨v1, vals1, us1, rs1, h1, k2.trans (by simpa using this)⟩

/-- C67. In exact arithmetic, the lowest returned value is at most the Rayleigh quotient of every combination of the columns of the initial guess. -/
theorem C67_guess (L : LinAlg K) (he : L.ExactEigh) (hq : L.ExactQr) (A : Matrix (Fin d) (Fin d) K) (hA : A.IsSymm)
    (nbVal : Nat) (g : List (Fin d → K)) (stp : Nat) (tol : K) (dimMax : Nat)
    (ho : 1 < min nbVal (if dimMax = 0 then d else dimMax) ∨ Ortho g) (r : DavidsonResult K d)
    (h : modifiedDavidson L A nbVal (some g) stp tol dimMax = .ok r) (h0 : 0 < r.eigvals.length) (x : Fin d → K) (hx : InSpan g x) :
    r.eigvals[0] * (x ⬝ᵥ x) ≤ x ⬝ᵥ (A *ᵥ x) := by
  unfold modifiedDavidson at h
  dsimp only at h
  cases stp with
  | zero => cases h
  | succ stp =>
    obtain ⟨T, W, rs, t1, t2, t3, t4, t5, t6⟩ := davidsonLoop_result h
    rw [Option.getD_some] at t2 t3
    generalize min nbVal (if dimMax = 0 then d else dimMax) = nb at *
    have hV : Ortho (if 1 < nb then L.qr d g else g) := by
      rcases ho with h1 | hg
      · rw [if_pos h1]; exact (hq d _).2.1
      · split_ifs
        · exact (hq d _).2.1
        · exact hg
    have hin : InSpan (if 1 < nb then L.qr d g else g) x := by
      split_ifs
      · exact hx.mono fun v hv => (hq d _).2.2 v hv
      · exact hx
    obtain ⟨v0, vals', us', rs', k1, k2⟩ := chain_lowest he hq hA t4 h0 T _ hV t2 t3
    have := ritz_lowest he hA hV k1 (by simp) hin
    exact le_trans (mul_le_mul_of_nonneg_right k2 (dot_self_nonneg x)) (by simpa using this)

end

/-- The run of three iterations from the first unit vector: the returned value is at most the first entry of the diagonal. -/
example (A : Matrix (Fin 4) (Fin 4) ℝ) (hA : A.IsSymm) :
    ∃ r, modifiedDavidson realLib A 1 (some [Pi.single 0 1]) 3 (1 / 1000) 0 = .ok r ∧ ∃ h : 0 < r.eigvals.length, r.eigvals[0] ≤ A 0 0 := by
  obtain ⟨r, h⟩ := C50_no_failure realLib realLib_qr realLib_rand A 1 (some [Pi.single 0 1]) 3 (by omega) (1 / 1000) 0 (by simp) (by simp)
  have hl : r.eigvals.length = 1 := by
    rw [(C50_converged realLib A 1 _ 3 (1 / 1000) 0 r h).1]
    simp
  have ho : Ortho [(Pi.single 0 1 : Fin 4 → ℝ)] := by
    rw [ortho_iff]
    exact ⟨fun v hv => by rw [List.mem_singleton.1 hv]; simp, by simp⟩
  have := C67_guess realLib realLib_eigh realLib_qr A hA 1 [Pi.single 0 1] 3 (1 / 1000) 0 (Or.inr ho) r h (by omega) (Pi.single 0 1)
    ⟨fun _ => 1, by simp⟩
  exact ⟨r, h, by omega, by simpa using this⟩

end TJ
