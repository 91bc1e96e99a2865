/-
Lemmas about the loop of the Davidson algorithm.
-/
import Verif.Lemmas.Davidson

namespace TJ

open Matrix Finset

section
variable {K : Type} [Field K] [LinearOrder K] {d : Nat}

/-- `W'` is the search space that follows `W`. -/
def NextSpace (L : LinAlg K) (A : Matrix (Fin d) (Fin d) K) (nb : Nat) (tol : K) (dimMax : Nat) (W W' : List (Fin d → K)) : Prop :=
  ∃ vals us rs corr, ritz L A W nb = .ok (vals, us, rs) ∧ (∃ r ∈ rs, ¬ L.norm r ≤ tol) ∧
    (corr.length = nb ∧ ∀ k < nb, corr.getD k 0 = precondition A (vals.getD k 0) (rs.getD k 0)) ∧
    W' = if (dimMax : Int) - nb < d then L.qr d (us ++ corr) else L.qr d (W ++ corr)

/-- One turn of the loop, when the Rayleigh-Ritz step succeeds. -/
theorem davidsonLoop_succ {L : LinAlg K} {A : Matrix (Fin d) (Fin d) K} {nb : Nat} {tol : K} {dimMax stp : Nat}
    {V : List (Fin d → K)} {last : Option (List K × List (Fin d → K))} {trace : List (List (Fin d → K))}
    {vals : List K} {us rs : List (Fin d → K)} (h : ritz L A V nb = .ok (vals, us, rs)) :
    (∀ r ∈ rs, L.norm r ≤ tol) ∧ davidsonLoop L A nb tol dimMax (stp + 1) V last trace = .ok ⟨vals, us, trace ++ [V], true⟩ ∨
    (∃ r ∈ rs, ¬ L.norm r ≤ tol) ∧ ∃ W', NextSpace L A nb tol dimMax V W' ∧ ∀ stp last trace,
      davidsonLoop L A nb tol dimMax (stp + 1) V last trace =
        davidsonLoop L A nb tol dimMax stp W' (some (vals, us)) (trace ++ [V]) := by
  obtain ⟨h1, h2, h3, h4, h5⟩ := ritz_ok h
  by_cases hc : ∀ r ∈ rs, L.norm r ≤ tol
  · refine Or.inl ⟨hc, ?_⟩
    unfold davidsonLoop
    refine bind_ok h ?_
    have : rs.all (fun res => decide (L.norm res ≤ tol)) = true := by simpa using hc
    dsimp only
    rw [if_pos this]
    rfl
  · refine Or.inr ?_
    have hc' : ∃ r ∈ rs, ¬ L.norm r ≤ tol := by
      by_contra h
      push Not at h hc
      obtain ⟨r, hr, hn⟩ := hc
      exact absurd (h r hr) (not_le.2 hn)
    refine ⟨hc', ?_⟩
    have hcorr : (List.range nb).mapM (fun ind => (do
        let lam ← pyGet vals ind
        let res ← pyGet rs ind
        return precondition A lam res : Py (Fin d → K))) =
        .ok ((List.range nb).map (fun ind => precondition A (vals.getD ind 0) (rs.getD ind 0))) := by
      refine mapM_ok ?_
      intro ind hi
      have hi := List.mem_range.1 hi
      refine bind_ok (pyGet_get (by omega)) (bind_ok (pyGet_get (by omega)) ?_)
      rw [List.getD_eq_getElem?_getD, List.getD_eq_getElem?_getD, List.getElem?_eq_getElem (by omega), List.getElem?_eq_getElem (by omega)]
      rfl
    refine ⟨_, ⟨vals, us, rs, (List.range nb).map (fun ind => precondition A (vals.getD ind 0) (rs.getD ind 0)), h, hc', ⟨by simp, fun k hk => by simp [List.getD_eq_getElem?_getD, hk]⟩, rfl⟩, ?_⟩
    intro stp last trace
    conv_lhs => unfold davidsonLoop
    refine bind_ok h ?_
    have : ¬ rs.all (fun res => decide (L.norm res ≤ tol)) = true := by
      obtain ⟨r, hr, hn⟩ := hc'
      simp only [List.all_eq_true, decide_eq_true_eq, not_forall]
      exact ⟨r, hr, hn⟩
    dsimp only
    rw [if_neg this]
    exact bind_ok hcorr rfl

/-- The result of the loop: it is the Rayleigh-Ritz step of the last search space; the trace is
a chain of successive search spaces. -/
theorem davidsonLoop_result {L : LinAlg K} {A : Matrix (Fin d) (Fin d) K} {nb : Nat} {tol : K} {dimMax : Nat} :
    ∀ {stp : Nat} {V : List (Fin d → K)} {last : Option (List K × List (Fin d → K))} {trace : List (List (Fin d → K))}
      {r : DavidsonResult K d}, davidsonLoop L A nb tol dimMax (stp + 1) V last trace = .ok r →
      ∃ T W rs, r.trace = trace ++ V :: T ∧ (V :: T).getLast? = some W ∧ (V :: T).IsChain (NextSpace L A nb tol dimMax) ∧
        ritz L A W nb = .ok (r.eigvals, r.eigvects, rs) ∧ (r.converged = true ↔ ∀ x ∈ rs, L.norm x ≤ tol) ∧
        (r.converged = false → T.length = stp)
  | stp, V, last, trace, r, h => by
    rcases hr : ritz L A V nb with e | ⟨vals, us, rs⟩
    · unfold davidsonLoop at h
      rw [hr] at h
      cases h
    · rcases davidsonLoop_succ (tol := tol) (dimMax := dimMax) (stp := stp) (last := last) (trace := trace) hr with ⟨h1, h2⟩ | ⟨h1, W', h2, h3⟩
      · rw [h2] at h
        obtain rfl := Except.ok.inj h
        exact ⟨[], V, rs, rfl, rfl, List.isChain_singleton _, hr, by simpa using h1, by simp⟩
      · rw [h3] at h
        match stp, h with
        | 0, h =>
          unfold davidsonLoop at h
          obtain rfl := Except.ok.inj h
          refine ⟨[], V, rs, rfl, rfl, List.isChain_singleton _, hr, ?_, by simp⟩
          obtain ⟨x, hx, hn⟩ := h1
          simp only [Bool.false_eq_true, false_iff, not_forall]
          exact ⟨x, hx, hn⟩
        | stp + 1, h =>
          obtain ⟨T, W, rs', t1, t2, t3, t4, t5, t6⟩ := davidsonLoop_result h
          refine ⟨W' :: T, W, rs', by rw [t1, List.append_assoc]; rfl, ?_, List.isChain_cons_cons.2 ⟨h2, t3⟩, t4, t5, ?_⟩
          · rw [List.getLast?_cons_cons]; exact t2
          · intro hc; rw [List.length_cons, t6 hc]

/-- Elements of a chain. -/
theorem mem_chain {α : Type} {R : α → α → Prop} : ∀ {a : α} {l : List α}, (a :: l).IsChain R → ∀ x ∈ a :: l, x = a ∨ ∃ y ∈ a :: l, R y x
  | a, [], _, x, hx => Or.inl (by simpa using hx)
  | a, b :: l, h, x, hx => by
    obtain ⟨h1, h2⟩ := List.isChain_cons_cons.1 h
    rcases List.mem_cons.1 hx with rfl | hx
    · exact Or.inl rfl
    · rcases mem_chain h2 x hx with rfl | ⟨y, hy, hyx⟩
      · exact Or.inr ⟨a, by simp, h1⟩
      · exact Or.inr ⟨y, List.mem_cons_of_mem _ hy, hyx⟩

theorem NextSpace.ortho {L : LinAlg K} (hq : L.ExactQr) {A : Matrix (Fin d) (Fin d) K} {nb : Nat} {tol : K} {dimMax : Nat}
    {W W' : List (Fin d → K)} (h : NextSpace L A nb tol dimMax W W') : Ortho W' := by
  obtain ⟨_, _, _, _, _, _, _, rfl⟩ := h
  split_ifs <;> exact (hq d _).2.1

theorem NextSpace.length {L : LinAlg K} (hq : L.ExactQr) {A : Matrix (Fin d) (Fin d) K} {nb : Nat} {tol : K} {dimMax : Nat}
    {W W' : List (Fin d → K)} (h : NextSpace L A nb tol dimMax W W') :
    min d nb ≤ W'.length ∧ W'.length ≤ min d (max dimMax (2 * nb)) := by
  obtain ⟨_, us, _, corr, h1, _, ⟨h2, _⟩, rfl⟩ := h
  obtain ⟨_, _, h3, _⟩ := ritz_ok h1
  split_ifs with hc
  · rw [(hq d _).1, List.length_append]
    omega
  · rw [(hq d _).1, List.length_append]
    omega

/-- The loop does not fail. -/
theorem davidsonLoop_ok {L : LinAlg K} (hq : L.ExactQr) {A : Matrix (Fin d) (Fin d) K} {nb : Nat} {tol : K} {dimMax : Nat} (hd : nb ≤ d) :
    ∀ {stp : Nat} {V : List (Fin d → K)} {last : Option (List K × List (Fin d → K))} {trace : List (List (Fin d → K))},
      nb ≤ V.length → ∃ r, davidsonLoop L A nb tol dimMax (stp + 1) V last trace = .ok r
  | stp, V, last, trace, hV => by
    obtain ⟨idx, _, _, _, hr⟩ := ritz_spec L A V nb hV
    rcases davidsonLoop_succ (tol := tol) (dimMax := dimMax) (stp := stp) (last := last) (trace := trace) hr with ⟨_, h2⟩ | ⟨_, W', h2, h3⟩
    · exact ⟨_, h2⟩
    · rw [h3]
      match stp with
      | 0 => exact ⟨_, rfl⟩
      | stp + 1 => exact davidsonLoop_ok hq hd (by have := (h2.length hq).1; omega)

/-! ### Exact arithmetic -/

/-- Ritz pairs of an orthonormal search space. -/
theorem ritz_exact {L : LinAlg K} (he : L.ExactEigh) {A : Matrix (Fin d) (Fin d) K} (hA : A.IsSymm) {V : List (Fin d → K)}
    (hV : Ortho V) {nb : Nat} {vals : List K} {us rs : List (Fin d → K)} (h : ritz L A V nb = .ok (vals, us, rs)) :
    Ortho us ∧ (∀ k (h1 : k < vals.length) (h2 : k < us.length), us[k] ⬝ᵥ (A *ᵥ us[k]) = vals[k]) ∧ vals.Pairwise (· ≤ ·) := by
  have hnb := (ritz_ok h).1
  obtain ⟨idx, h1, h2, h3, h4⟩ := ritz_spec L A V nb hnb
  obtain ⟨e1, e2⟩ := he V.length (rayleigh A V) (rayleigh_symm hA V)
  rw [h4] at h
  have h := Except.ok.inj h
  simp only [Prod.mk.injEq] at h
  obtain ⟨rfl, rfl, rfl⟩ := h
  refine ⟨?_, ?_, ?_⟩
  · intro i j
    simp only [List.get_eq_getElem, List.getElem_map]
    rw [combine_dot hV, e2]
    have : (idx[(i : Nat)]'(by simpa using i.2) = idx[(j : Nat)]'(by simpa using j.2)) ↔ i = j := by
      rw [List.Nodup.getElem_inj_iff h2, Fin.ext_iff]
    simp only [this]
  · intro k _ _
    simp only [List.getElem_map]
    rw [combine_rayleigh, e1, dotProduct_smul, e2, if_pos rfl, smul_eq_mul, mul_one]
  · have := h3.2.2.2.1
    rw [List.pairwise_map] at this
    rw [List.pairwise_map]
    refine this.imp ?_
    intro i j hij
    simpa [List.getD_eq_getElem?_getD] using hij

variable [IsStrictOrderedRing K]

/-- The lowest Ritz value is the minimum of the Rayleigh quotient on the search space. -/
theorem ritz_lowest {L : LinAlg K} (he : L.ExactEigh) {A : Matrix (Fin d) (Fin d) K} (hA : A.IsSymm) {V : List (Fin d → K)}
    (hV : Ortho V) {nb : Nat} {vals : List K} {us rs : List (Fin d → K)} (h : ritz L A V nb = .ok (vals, us, rs)) (h0 : 0 < vals.length)
    {x : Fin d → K} (hx : InSpan V x) : vals[0] * (x ⬝ᵥ x) ≤ x ⬝ᵥ (A *ᵥ x) := by
  have hnb := (ritz_ok h).1
  obtain ⟨idx, h1, h2, h3, h4⟩ := ritz_spec L A V nb hnb
  have hs := rayleigh_symm hA V
  obtain ⟨e1, e2⟩ := he V.length (rayleigh A V) hs
  rw [h4] at h
  have h := Except.ok.inj h
  simp only [Prod.mk.injEq] at h
  obtain ⟨rfl, rfl, rfl⟩ := h
  obtain ⟨y, rfl⟩ := hx
  show _ * (combine V y ⬝ᵥ combine V y) ≤ combine V y ⬝ᵥ (A *ᵥ combine V y)
  rw [combine_dot hV, combine_rayleigh]
  refine lowest_le_quotient hs e1 e2 _ ?_ y
  intro k
  simp only [List.length_map] at h0
  simp only [List.getElem_map]
  by_cases hk : (k : Nat) ∈ idx.map Fin.val
  · obtain ⟨j, hj, hjk⟩ := List.mem_map.1 hk
    have hjk : j = k := Fin.ext hjk
    subst hjk
    obtain ⟨m, hm, rfl⟩ := List.getElem_of_mem hj
    have hp := h3.2.2.2.1
    rw [List.pairwise_map] at hp
    rcases Nat.eq_zero_or_pos m with rfl | hm0
    · exact le_refl _
    · have := List.pairwise_iff_getElem.1 hp 0 m h0 hm hm0
      simpa [List.getD_eq_getElem?_getD] using this
  · have := h3.2.2.2.2 k (by simp) hk (idx[0] : Nat) (List.mem_map.2 ⟨_, List.getElem_mem h0, rfl⟩)
    simpa [List.getD_eq_getElem?_getD] using this

/-- The lowest Ritz value does not increase from a search space to the next. -/
theorem NextSpace.lowest_le {L : LinAlg K} (he : L.ExactEigh) (hq : L.ExactQr) {A : Matrix (Fin d) (Fin d) K} (hA : A.IsSymm)
    {nb : Nat} {tol : K} {dimMax : Nat} {W W' : List (Fin d → K)} (hW : Ortho W) (h : NextSpace L A nb tol dimMax W W')
    {vals vals' : List K} {us rs us' rs' : List (Fin d → K)} (hr : ritz L A W nb = .ok (vals, us, rs))
    (hr' : ritz L A W' nb = .ok (vals', us', rs')) (h0 : 0 < vals.length) (h0' : 0 < vals'.length) : vals'[0] ≤ vals[0] := by
  have hW' := h.ortho hq
  obtain ⟨vals1, us1, rs1, corr, h1, _, _, rfl⟩ := h
  rw [hr] at h1
  have h1 := Except.ok.inj h1
  simp only [Prod.mk.injEq] at h1
  obtain ⟨rfl, rfl, rfl⟩ := h1
  obtain ⟨o1, o2, _⟩ := ritz_exact he hA hW hr
  obtain ⟨r1, r2, r3, _, _⟩ := ritz_ok hr
  have hus : 0 < us.length := by omega
  have hin : InSpan (if (dimMax : Int) - nb < d then L.qr d (us ++ corr) else L.qr d (W ++ corr)) us[0] := by
    split_ifs with hc
    · exact (hq d _).2.2 _ (List.mem_append_left _ (List.getElem_mem hus))
    · have hWin : InSpan W us[0] := by
        obtain ⟨idx, _, _, _, h4⟩ := ritz_spec L A W nb r1
        rw [h4] at hr
        have hr := Except.ok.inj hr
        simp only [Prod.mk.injEq] at hr
        obtain ⟨-, rfl, -⟩ := hr
        exact ⟨_, by simp only [List.getElem_map]; rfl⟩
      obtain ⟨y, hy⟩ := hWin
      rw [hy]
      have : ∀ i, InSpan (L.qr d (W ++ corr)) (W.get i) := fun i => (hq d _).2.2 _ (List.mem_append_left _ (List.get_mem _ _))
      choose z hz using this
      refine ⟨∑ i, y i • z i, ?_⟩
      rw [sum_congr rfl (fun i _ => by rw [hz i])]
      simp only [smul_sum, Finset.sum_apply, Pi.smul_apply, sum_smul, smul_smul, smul_eq_mul]
      rw [sum_comm]
  have := ritz_lowest he hA hW' hr' h0' hin
  rw [o2 0 h0 hus] at this
  have hu : us[0] ⬝ᵥ us[0] = 1 := by simpa using o1 ⟨0, hus⟩ ⟨0, hus⟩
  rwa [hu, mul_one] at this

end

end TJ
