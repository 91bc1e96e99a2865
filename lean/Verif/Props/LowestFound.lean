/-
C140: whether the converged energies of `modified_davidson_algorithm` are the lowest ones.
-/
import Verif.Props.RitzValues
import Verif.Props.ExactConditions
import Verif.Props.Hamiltonian
import Verif.Props.Denominators

namespace TJ

open Finset Matrix

section
variable {K : Type} [Field K] [LinearOrder K] [IsStrictOrderedRing K] {d : Nat}

/-- The last search space, from which the returned values are taken. -/
theorem last_space {L : LinAlg K} (hq : L.ExactQr) {A : Matrix (Fin d) (Fin d) K} {nbVal : Nat} {guess : Option (List (Fin d → K))}
    {stp : Nat} {tol : K} {dimMax : Nat} {r : DavidsonResult K d} (h : modifiedDavidson L A nbVal guess stp tol dimMax = .ok r)
    (ho : 1 < min nbVal (if dimMax = 0 then d else dimMax) ∨ (∃ g, guess = some g ∧ Ortho g) ∨ 2 ≤ r.trace.length) :
    ∃ W rs, r.trace.getLast? = some W ∧ Ortho W ∧ ritz L A W (min nbVal (if dimMax = 0 then d else dimMax)) = .ok (r.eigvals, r.eigvects, rs) := by
  unfold modifiedDavidson at h
  dsimp only at h
  cases stp with
  | zero => cases h
  | succ stp =>
    obtain ⟨T, W, rs, t1, t2, t3, t4, t5, t6⟩ := davidsonLoop_result h
    rw [List.nil_append] at t1
    refine ⟨W, rs, by rw [t1, t2], ?_, t4⟩
    by_cases hT : T = []
    · subst hT
      simp only [List.getLast?_singleton, Option.some.injEq] at t2
      rcases ho with h1 | ⟨g, hg, hg'⟩ | h1
      · rw [← t2, if_pos h1]
        exact (hq d _).2.1
      · rw [← t2]
        by_cases h1 : 1 < min nbVal (if dimMax = 0 then d else dimMax)
        · rw [if_pos h1]; exact (hq d _).2.1
        · rw [if_neg h1, hg]; exact hg'
      · rw [t1] at h1
        simp at h1
    · rcases List.eq_nil_or_concat T with rfl | ⟨T', z, rfl⟩
      · exact absurd rfl hT
      · rw [List.concat_eq_append] at t2 t3
        rw [← List.cons_append, List.getLast?_append, List.getLast?_singleton] at t2
        simp only [Option.some_or, Option.some.injEq] at t2
        subst t2
        have : ∃ y, NextSpace L A (min nbVal (if dimMax = 0 then d else dimMax)) tol (if dimMax = 0 then d else dimMax) y z := by
          rw [← List.cons_append, List.isChain_append] at t3
          exact ⟨_, t3.2.2 _ (List.getLast?_eq_some_getLast (List.cons_ne_nil _ _)) z rfl⟩
        obtain ⟨y, hy⟩ := this
        exact hy.ortho hq

/-- C140, part: in exact arithmetic, if the last search space contains the eigenvectors of the lowest eigenvalues, in particular if it has
the full dimension, the returned values are exactly the lowest eigenvalues. Missing: other search spaces, see `C140_fixed`. -/
theorem C140_contains_partial (L : LinAlg K) (he : L.ExactEigh) (hq : L.ExactQr) (A : Matrix (Fin d) (Fin d) K) (hA : A.IsSymm)
    (nbVal : Nat) (guess : Option (List (Fin d → K))) (stp : Nat) (tol : K) (dimMax : Nat) (r : DavidsonResult K d)
    (h : modifiedDavidson L A nbVal guess stp tol dimMax = .ok r)
    (ho : 1 < min nbVal (if dimMax = 0 then d else dimMax) ∨ (∃ g, guess = some g ∧ Ortho g) ∨ 2 ≤ r.trace.length)
    (mu : Fin d → K) (x : Fin d → Fin d → K) (hx : ∀ j, A *ᵥ x j = mu j • x j) (hxo : ∀ i j, x i ⬝ᵥ x j = if i = j then 1 else 0)
    (hmu : Monotone mu) (W : List (Fin d → K)) (hW : r.trace.getLast? = some W)
    (hin : W.length = d ∨ ∀ j : Fin d, (j : Nat) < r.eigvals.length → InSpan W (x j)) :
    ∀ k (hk : k < r.eigvals.length), ∃ hd : k < d, r.eigvals[k] = mu ⟨k, hd⟩ := by
  intro k hk
  obtain ⟨hd, hle⟩ := C99_sorted L he hq A hA nbVal guess stp tol dimMax r h ho mu x hx hxo (fun i j hij => hmu hij) k hk
  refine ⟨hd, le_antisymm ?_ hle⟩
  obtain ⟨W', rs, w1, w2, w3⟩ := last_space hq h ho
  obtain rfl : W' = W := Option.some.inj (w1.symm.trans hW)
  have hin' : ∀ j : Fin d, (j : Nat) < r.eigvals.length → InSpan W' (x j) := by
    rcases hin with hfull | hin
    · intro j _
      have hV' : ∀ i j : Fin d, W'.get (Fin.cast hfull.symm i) ⬝ᵥ W'.get (Fin.cast hfull.symm j) = if i = j then 1 else 0 := by
        intro i j
        rw [w2]
        simp [Fin.ext_iff]
      obtain ⟨p1, p2⟩ := project_pass W' w2 (x j)
      have h0 : W'.foldl (fun t q => (1 - vecMulVec q q) *ᵥ t) (x j) = 0 := by
        have := complete (w := fun i => W'.get (Fin.cast hfull.symm i)) hV' (W'.foldl (fun t q => (1 - vecMulVec q q) *ᵥ t) (x j))
          (W'.foldl (fun t q => (1 - vecMulVec q q) *ᵥ t) (x j))
        rw [sum_eq_zero (fun i _ => by rw [p1 _ (List.get_mem _ _), zero_mul])] at this
        exact dotProduct_self_eq_zero.1 this
      rwa [h0, sub_zero] at p2
    · exact hin
  refine ritz_kth he hA w2 w3 k hk (fun i => x ⟨i, by omega⟩) (fun i => mu ⟨i, by omega⟩) ?_ ?_ ?_ _ ?_
  · intro i
    exact hin' _ (by have := i.2; show (i : Nat) < _; omega)
  · intro i j
    rw [hxo]
    simp [Fin.ext_iff]
  · intro i j
    rw [hx, dotProduct_smul, hxo, smul_eq_mul]
    by_cases hij : i = j
    · subst hij; simp
    · rw [if_neg hij, if_neg (by simpa [Fin.ext_iff] using hij), mul_zero]
  · intro i
    exact hmu (by rw [Fin.le_def]; show (i : Nat) ≤ k; omega)

/-- C140. Temple's inequality: after convergence in exact arithmetic, every returned value is near an end of every gap `(a, b)` of the
spectrum in which it lies, with an error of the second order in the tolerance. -/
theorem C140_gap (L : LinAlg K) (hL : L.ExactSqrt) (he : L.ExactEigh) (hq : L.ExactQr) (A : Matrix (Fin d) (Fin d) K)
    (hA : A.IsSymm) (nbVal : Nat) (guess : Option (List (Fin d → K))) (stp : Nat) (tol : K) (dimMax : Nat)
    (r : DavidsonResult K d) (h : modifiedDavidson L A nbVal guess stp tol dimMax = .ok r) (hc : r.converged = true)
    (ho : 1 < min nbVal (if dimMax = 0 then d else dimMax) ∨ (∃ g, guess = some g ∧ Ortho g) ∨ 2 ≤ r.trace.length)
    (a b : K) (hab : a ≤ b) (hgap : ∀ μ (x : Fin d → K), x ≠ 0 → A *ᵥ x = μ • x → μ ≤ a ∨ b ≤ μ) :
    ∀ lam ∈ r.eigvals, (lam - a) * (b - lam) ≤ tol * tol := by
  obtain ⟨c1, c2, _, _, c5⟩ := C50_converged L A nbVal guess stp tol dimMax r h
  obtain ⟨o1, _, o3, _⟩ := C51_ritz_bounds L he hq A hA nbVal guess stp tol dimMax r h ho
  intro lam hl
  obtain ⟨k, hk, rfl⟩ := List.getElem_of_mem hl
  have hk' : k < r.eigvects.length := by omega
  obtain ⟨_, t1⟩ := (norm_le_iff hL _ _).1 (c5.1 hc k hk hk')
  obtain ⟨e1, e2⟩ := he d A hA
  have hu : r.eigvects[k] ⬝ᵥ r.eigvects[k] = 1 := ((ortho_iff _).1 o1).1 _ (List.getElem_mem _)
  have hray := o3 k hk hk'
  set u := r.eigvects[k]
  set lam := r.eigvals[k]
  set mu := (L.eigh d A).1
  set x := (L.eigh d A).2
  have hAx : ∀ j y, x j ⬝ᵥ (A *ᵥ y) = mu j * (x j ⬝ᵥ y) := by
    intro j y
    rw [dotProduct_mulVec, ← mulVec_transpose, hA, e1, smul_dotProduct, smul_eq_mul]
  have h1 : ∑ j, (x j ⬝ᵥ u) * (x j ⬝ᵥ u) = 1 := by rw [← complete e2 u u, hu]
  have h2 : ∑ j, mu j * ((x j ⬝ᵥ u) * (x j ⬝ᵥ u)) = lam := by
    rw [← hray, complete e2 u (A *ᵥ u)]
    exact sum_congr rfl fun j _ => by rw [hAx]; ring
  have h3 : (lam • u - A *ᵥ u) ⬝ᵥ (lam • u - A *ᵥ u) = ∑ j, (mu j - lam) ^ 2 * ((x j ⬝ᵥ u) * (x j ⬝ᵥ u)) := by
    rw [complete e2]
    refine sum_congr rfl fun j _ => ?_
    rw [dotProduct_sub, dotProduct_smul, hAx, smul_eq_mul]
    ring
  rw [h3] at t1
  have hpos : 0 ≤ ∑ j, (mu j - a) * (mu j - b) * ((x j ⬝ᵥ u) * (x j ⬝ᵥ u)) := by
    refine sum_nonneg fun j _ => mul_nonneg ?_ (mul_self_nonneg _)
    have hne : x j ≠ 0 := by
      intro h0
      have := e2 j j
      rw [if_pos rfl] at this
      change x j ⬝ᵥ x j = 1 at this
      rw [h0, zero_dotProduct] at this
      exact zero_ne_one this
    rcases hgap (mu j) (x j) hne (e1 j) with h | h
    · exact mul_nonneg_of_nonpos_of_nonpos (by linarith) (by linarith)
    · exact mul_nonneg (by linarith) (by linarith)
  have hsplit : ∑ j, (mu j - a) * (mu j - b) * ((x j ⬝ᵥ u) * (x j ⬝ᵥ u)) =
      ∑ j, (mu j - lam) ^ 2 * ((x j ⬝ᵥ u) * (x j ⬝ᵥ u)) + (2 * lam - a - b) * (∑ j, mu j * ((x j ⬝ᵥ u) * (x j ⬝ᵥ u))) -
        (lam * lam - a * b) * ∑ j, (x j ⬝ᵥ u) * (x j ⬝ᵥ u) := by
    rw [mul_sum, mul_sum, ← sum_add_distrib, ← sum_sub_distrib]
    exact sum_congr rfl fun j _ => by ring
  rw [hsplit, h1, h2] at hpos
  nlinarith

/-- C140. After convergence in exact arithmetic: if the first value is below the middle of the gap `(e, b)` above the lowest eigenvalue `e`, it is
right up to `2 tol² / (b - e)`. -/
theorem C140_first_value (L : LinAlg K) (hL : L.ExactSqrt) (he : L.ExactEigh) (hq : L.ExactQr) (A : Matrix (Fin d) (Fin d) K)
    (hA : A.IsSymm) (nbVal : Nat) (guess : Option (List (Fin d → K))) (stp : Nat) (tol : K) (dimMax : Nat)
    (r : DavidsonResult K d) (h : modifiedDavidson L A nbVal guess stp tol dimMax = .ok r) (hc : r.converged = true)
    (ho : 1 < min nbVal (if dimMax = 0 then d else dimMax) ∨ (∃ g, guess = some g ∧ Ortho g) ∨ 2 ≤ r.trace.length)
    (e b : K) (heb : e < b) (hlow : ∀ μ (x : Fin d → K), x ≠ 0 → A *ᵥ x = μ • x → μ = e ∨ b ≤ μ)
    (h0 : 0 < r.eigvals.length) (hmid : r.eigvals[0] ≤ (e + b) / 2) :
    e ≤ r.eigvals[0] ∧ r.eigvals[0] - e ≤ 2 * (tol * tol) / (b - e) := by
  have hg := C140_gap L hL he hq A hA nbVal guess stp tol dimMax r h hc ho e b heb.le
    (fun μ x hx hxe => (hlow μ x hx hxe).imp le_of_eq id) _ (List.getElem_mem h0)
  have hle : e ≤ r.eigvals[0] := by
    obtain ⟨e1, e2⟩ := he d A hA
    have hcard := C99_upper_bounds L he hq A hA nbVal guess stp tol dimMax r h ho _ _ e1 e2 0 h0
    obtain ⟨j, hj⟩ := card_pos.1 (by omega : 0 < (univ.filter fun j => (L.eigh d A).1 j ≤ r.eigvals[0]).card)
    have hj := (mem_filter.1 hj).2
    have hne : (L.eigh d A).2 j ≠ 0 := by
      intro h0
      have := e2 j j
      rw [if_pos rfl, h0, zero_dotProduct] at this
      exact zero_ne_one this
    rcases hlow _ _ hne (e1 j) with hh | hh
    · rw [← hh]; exact hj
    · linarith
  refine ⟨hle, ?_⟩
  generalize r.eigvals[0] = lam at hg hle hmid ⊢
  rw [le_div_iff₀ (sub_pos.2 heb)]
  have : (b - e) / 2 ≤ b - lam := by linarith
  have := mul_le_mul_of_nonneg_left this (sub_nonneg.2 hle)
  linarith

/-- C140 fails: started with `nb_val` orthonormal eigenvectors, whichever they are, the algorithm stops in its first iteration and
reports convergence; every returned value belongs to one of these eigenvectors. -/
theorem C140_fixed (L : LinAlg K) (hL : L.ExactSqrt) (he : L.ExactEigh) (hq : L.ExactQr) (A : Matrix (Fin d) (Fin d) K) (hA : A.IsSymm)
    (G : List (Fin d → K)) (hG : Ortho G) (ev : Fin G.length → K) (hev : ∀ i, A *ᵥ G.get i = ev i • G.get i)
    (dimMax : Nat) (hdm : dimMax = 0 ∨ G.length ≤ dimMax) (stp : Nat) (hs : 1 ≤ stp) (tol : K) (ht : 0 ≤ tol) :
    ∃ r, modifiedDavidson L A G.length (some G) stp tol dimMax = .ok r ∧ r.converged = true ∧ r.trace.length = 1 ∧
      r.eigvals.length = G.length ∧ ∀ lam ∈ r.eigvals, ∃ i, lam = ev i := by
  have hd : G.length ≤ d := ortho_length G hG
  have hmin : min G.length (if dimMax = 0 then d else dimMax) = G.length := by split_ifs <;> omega
  unfold modifiedDavidson
  dsimp only
  rw [hmin, Option.getD_some]
  -- the first search space has the span of the guess
  obtain ⟨V, hVd, hV, hVl, hVG⟩ : ∃ V, V = (if 1 < G.length then L.qr d G else G) ∧ Ortho V ∧ V.length = G.length ∧ ∀ v ∈ V, InSpan G v := by
    refine ⟨_, rfl, ?_⟩
    by_cases h1 : 1 < G.length
    · rw [if_pos h1]
      have hl : (L.qr d G).length = G.length := by rw [(hq d G).1]; omega
      exact ⟨(hq d G).2.1, hl, span_back hG (hq d G).2.1 hl (hq d G).2.2⟩
    · rw [if_neg h1]
      exact ⟨hG, rfl, fun v hv => inSpan_get hv⟩
  have hGV : ∀ v ∈ G, InSpan V v := span_back hV hG hVl.symm hVG
  rw [← hVd]
  obtain ⟨idx, i1, i2, i3, hr⟩ := ritz_spec L A V G.length (by omega)
  obtain ⟨e1, e2⟩ := he V.length (rayleigh A V) (rayleigh_symm hA V)
  -- the residues are zero
  have hspan : ∀ y, InSpan V y → InSpan V (A *ᵥ y) := by
    intro y hy
    obtain ⟨z, rfl⟩ := hy.mono hVG
    rw [mulVec_sum]
    have : ∀ s : Finset (Fin G.length), InSpan V (∑ i ∈ s, A *ᵥ (z i • G.get i)) := by
      intro s
      induction s using Finset.induction_on with
      | empty => simpa using inSpan_zero V
      | insert a s ha ih =>
        rw [Finset.sum_insert ha]
        refine inSpan_add ?_ ih
        rw [mulVec_smul, hev]
        exact inSpan_smul (inSpan_smul (hGV _ (List.get_mem _ _)) _) _
    exact this _
  have hin : ∀ k, InSpan V (combine V ((L.eigh V.length (rayleigh A V)).2 k)) := fun k => ⟨_, rfl⟩
  have hzero : ∀ k, (L.eigh V.length (rayleigh A V)).1 k • combine V ((L.eigh V.length (rayleigh A V)).2 k) -
      A *ᵥ combine V ((L.eigh V.length (rayleigh A V)).2 k) = 0 := by
    intro k
    set lam := (L.eigh V.length (rayleigh A V)).1 k
    set w := (L.eigh V.length (rayleigh A V)).2 k with hw
    have horth : ∀ i, V.get i ⬝ᵥ (lam • combine V w - A *ᵥ combine V w) = 0 := by
      intro i
      have hone : V.get i = combine V (Pi.single i 1) := by
        unfold combine
        rw [sum_eq_single i]
        · simp
        · intro j _ hj; simp [hj]
        · simp
      rw [dotProduct_sub, dotProduct_smul, hone, combine_dot hV, combine_rayleigh, hw, e1 k, dotProduct_smul, sub_self]
    have hres : InSpan V (lam • combine V w - A *ᵥ combine V w) := by
      rw [sub_eq_add_neg, ← neg_one_smul K (A *ᵥ combine V w)]
      exact inSpan_add (inSpan_smul (hin k) _) (inSpan_smul (hspan _ (hin k)) _)
    obtain ⟨y, hy⟩ := hres
    have : (lam • combine V w - A *ᵥ combine V w) ⬝ᵥ (lam • combine V w - A *ᵥ combine V w) = 0 := by
      conv_lhs => rw [hy]
      have := combine_dot_left V y (∑ i, y i • V.get i)
      unfold combine at this
      rw [this, ← hy]
      exact sum_eq_zero fun i _ => by rw [horth, mul_zero]
    exact dotProduct_self_eq_zero.1 this
  obtain ⟨stp, rfl⟩ : ∃ k, stp = k + 1 := ⟨stp - 1, by omega⟩
  rcases davidsonLoop_succ (tol := tol) (dimMax := if dimMax = 0 then d else dimMax) (stp := stp) (last := none) (trace := []) hr with
    ⟨_, g⟩ | ⟨⟨x, hx, g⟩, _⟩
  · refine ⟨_, g, rfl, rfl, by simp [i1], ?_⟩
    intro lam hl
    obtain ⟨k, _, rfl⟩ := List.mem_map.1 hl
    set u := combine V ((L.eigh V.length (rayleigh A V)).2 k) with hu
    -- some eigenvector of the guess has a component along u
    have hu1 : u ⬝ᵥ u = 1 := by
      rw [hu, combine_dot hV, e2, if_pos rfl]
    obtain ⟨i, hi⟩ : ∃ i, G.get i ⬝ᵥ u ≠ 0 := by
      by_contra hall
      push Not at hall
      obtain ⟨z, hz⟩ := (hin k).mono hVG
      have : u ⬝ᵥ u = 0 := by
        conv_lhs => rw [show u = ∑ i, z i • G.get i from hz]
        have h2 := combine_dot_left G z (∑ i, z i • G.get i)
        unfold combine at h2
        rw [h2, ← hz]
        exact sum_eq_zero fun i _ => by rw [show G.get i ⬝ᵥ combine V _ = 0 from hall i, mul_zero]
      rw [hu1] at this
      exact one_ne_zero this
    refine ⟨i, ?_⟩
    have h1 : A *ᵥ u = (L.eigh V.length (rayleigh A V)).1 k • u := (sub_eq_zero.1 (hzero k)).symm
    have h2 : G.get i ⬝ᵥ (A *ᵥ u) = ev i * (G.get i ⬝ᵥ u) := by
      rw [dotProduct_mulVec, ← mulVec_transpose, hA, hev, smul_dotProduct, smul_eq_mul]
    rw [h1, dotProduct_smul, smul_eq_mul] at h2
    exact mul_right_cancel₀ hi h2
  · obtain ⟨k, _, rfl⟩ := List.mem_map.1 hx
    rw [hzero k] at g
    exact absurd (norm_zero_le hL ht) g

/-- C140 fails for every symmetric matrix with `n` orthonormal eigenvectors above the lowest eigenvalue: some start vectors lead to a converged result
that misses it. -/
theorem C140_misses (L : LinAlg K) (hL : L.ExactSqrt) (he : L.ExactEigh) (hq : L.ExactQr) (A : Matrix (Fin d) (Fin d) K) (hA : A.IsSymm)
    (mu : Fin d → K) (x : Fin d → Fin d → K) (hx : ∀ j, A *ᵥ x j = mu j • x j) (hxo : ∀ i j, x i ⬝ᵥ x j = if i = j then 1 else 0)
    (e : K) (n : Nat) (hn : n ≤ (univ.filter fun j => e < mu j).card)
    (dimMax : Nat) (hdm : dimMax = 0 ∨ n ≤ dimMax) (stp : Nat) (hs : 1 ≤ stp) (tol : K) (ht : 0 ≤ tol) :
    ∃ guess r, Ortho guess ∧ modifiedDavidson L A n (some guess) stp tol dimMax = .ok r ∧ r.converged = true ∧ r.eigvals.length = n ∧
      ∀ lam ∈ r.eigvals, e < lam := by
  obtain ⟨l, hl1, hl2, hl3⟩ : ∃ l : List (Fin d), l.length = n ∧ l.Nodup ∧ ∀ j ∈ l, e < mu j := by
    refine ⟨((univ.filter fun j => e < mu j).toList).take n, ?_, ?_, ?_⟩
    · rw [List.length_take, Finset.length_toList]; omega
    · exact (Finset.nodup_toList _).sublist (List.take_sublist _ _)
    · intro j hj
      exact (mem_filter.1 (Finset.mem_toList.1 (List.mem_of_mem_take hj))).2
  have hG : Ortho (l.map x) := by
    rw [ortho_iff]
    refine ⟨?_, ?_⟩
    · intro v hv
      obtain ⟨j, _, rfl⟩ := List.mem_map.1 hv
      rw [hxo, if_pos rfl]
    · rw [List.pairwise_map]
      exact hl2.imp fun hab => by rw [hxo, if_neg hab]
  obtain ⟨r, r1, r2, _, r4, r5⟩ := C140_fixed L hL he hq A hA (l.map x) hG (fun i => mu (l[(i : Nat)]'(by simpa using i.2)))
    (fun i => by simp [hx]) dimMax (by rw [List.length_map, hl1]; exact hdm) stp hs tol ht
  rw [List.length_map, hl1] at r1 r4
  refine ⟨_, r, hG, r1, r2, r4, ?_⟩
  intro lam hlam
  obtain ⟨i, rfl⟩ := r5 lam hlam
  exact hl3 _ (List.getElem_mem _)

/-- C140 fails for static Hamiltonians: without hopping, flips and singlet displacement (`bt`, `bij`, `bSD`, `btN` off), started with any
determinants, the algorithm reports convergence at once and returns energies of these determinants, whatever lower energies there are. -/
theorem C140_static (E : Env) (L : LinAlg K) (hL : L.ExactSqrt) (he : L.ExactEigh) (hq : L.ExactQr) (c : Config) (nbh nbv nb : Nat)
    (hc : RectConf c nbh nbv nb) (hf : c.Full) (hn : c.nholes + c.nbeta ≤ c.nsites) (I : Interactions K) (B : BoolInteractions)
    (hB : B.bt = false ∧ B.bij = false ∧ B.bSD = false ∧ B.btN = false) (dets : List (List Nat)) (hb : constructBasis c = .ok dets)
    (H : SpMat K) (hH : buildHamiltonian E c I dets B [] true = .ok H) (ks : List (Fin H.dim)) (hnd : ks.Nodup)
    (dimMax : Nat) (hdm : dimMax = 0 ∨ ks.length ≤ dimMax) (stp : Nat) (hs : 1 ≤ stp) (tol : K) (ht : 0 ≤ tol) :
    ∃ r, modifiedDavidson L H.toMatrix ks.length (some (unitVectors ks)) stp tol dimMax = .ok r ∧ r.converged = true ∧
      r.eigvals.length = ks.length ∧ ∀ lam ∈ r.eigvals, ∃ k ∈ ks, ∃ hk : (k : Nat) < dets.length,
        lam = hamEl I (fun s => gridPos (nbh * nb) s) B (conf c dets[(k : Nat)]) (conf c dets[(k : Nat)]) := by
  obtain ⟨H', h1, h2, _, _⟩ := buildHamiltonian_spec I (hc.tj E) hf hn hb B [] true
  have hdim : H.dim = dets.length := by rw [Except.ok.inj (hH.symm.trans h1)]; exact h2
  have hel := C31_matrix_elements E c nbh nbv nb hc hf hn I B [] true dets hb H hH
  have hoff : ∀ i j : Fin H.dim, i ≠ j → H.toMatrix i j = 0 := by
    intro i j hij
    have hi : (i : Nat) < dets.length := by rw [← hdim]; exact i.2
    have hj : (j : Nat) < dets.length := by rw [← hdim]; exact j.2
    show H.entry i j = 0
    rw [hel i j hi hj]
    have hne : conf c dets[(j : Nat)] ≠ conf c dets[(i : Nat)] := fun h => hij (Fin.ext (conf_inj hb hj hi h).symm)
    unfold hamEl staticEl repEl
    rw [hB.1, hB.2.1, hB.2.2.1, hB.2.2.2, if_neg hne, if_neg hne]
    simp
  have hA : H.toMatrix.IsSymm := by
    ext i j
    rw [Matrix.transpose_apply]
    by_cases hij : i = j
    · rw [hij]
    · rw [hoff i j hij, hoff j i (Ne.symm hij)]
  have hl := unitVectors_length (K := K) ks
  obtain ⟨r, r1, r2, _, r4, r5⟩ := C140_fixed L hL he hq H.toMatrix hA (unitVectors ks) (unitVectors_ortho hnd)
    (fun i => H.toMatrix (ks[(i : Nat)]'(lt_of_lt_of_eq i.2 hl)) (ks[(i : Nat)]'(lt_of_lt_of_eq i.2 hl)))
    (fun i => by
      rw [unitVectors_get]
      ext j
      rw [Matrix.mulVec_single_one, Pi.smul_apply, smul_eq_mul, Matrix.col_apply]
      by_cases hj : j = ks[(i : Nat)]'(lt_of_lt_of_eq i.2 hl)
      · rw [hj, Pi.single_eq_same, mul_one]
      · rw [Pi.single_eq_of_ne hj, mul_zero, hoff _ _ hj]) dimMax (by rw [hl]; exact hdm) stp hs tol ht
  rw [hl] at r1 r4
  refine ⟨r, r1, r2, r4, ?_⟩
  intro lam hlam
  obtain ⟨i, rfl⟩ := r5 lam hlam
  have hk : ((ks[(i : Nat)]'(lt_of_lt_of_eq i.2 hl) : Fin H.dim) : Nat) < dets.length := by rw [← hdim]; exact Fin.is_lt _
  exact ⟨_, List.getElem_mem _, hk, hel _ _ hk hk⟩

end

/-- The matrix with the eigenvalues 1 and 2. -/
def twoLevels : Matrix (Fin 2) (Fin 2) ℝ := Matrix.diagonal ![1, 2]

theorem twoLevels_symm : twoLevels.IsSymm := Matrix.isSymm_diagonal _

theorem twoLevels_mulVec (j : Fin 2) : twoLevels *ᵥ Pi.single j 1 = (![1, 2] : Fin 2 → ℝ) j • (Pi.single j 1 : Fin 2 → ℝ) := by
  ext i
  unfold twoLevels
  fin_cases i <;> fin_cases j <;> simp

/-- Started with the second eigenvector, the run converges and misses the value 1. -/
example : ∃ guess r, Ortho guess ∧ modifiedDavidson realLib twoLevels 1 (some guess) 5 (1 / 1000) 0 = .ok r ∧ r.converged = true ∧
    r.eigvals.length = 1 ∧ ∀ lam ∈ r.eigvals, 1 < lam := by
  refine C140_misses realLib realLib_sqrt realLib_eigh realLib_qr twoLevels twoLevels_symm ![1, 2] (fun j => Pi.single j 1) twoLevels_mulVec
    (fun i j => by rw [single_dotProduct, one_mul, Pi.single_apply]) 1 1 ?_ 0 (Or.inl rfl) 5 (by omega) _ (by norm_num)
  rw [Nat.one_le_iff_ne_zero, Finset.card_ne_zero]
  exact ⟨1, mem_filter.2 ⟨mem_univ _, by simp⟩⟩

theorem twoLevels_gap (μ : ℝ) (x : Fin 2 → ℝ) (hx : x ≠ 0) (h : twoLevels *ᵥ x = μ • x) : μ = 1 ∨ 2 ≤ μ := by
  have h0 := congrFun h 0
  have h1 := congrFun h 1
  unfold twoLevels at h0 h1
  rw [Matrix.mulVec_diagonal, Pi.smul_apply, smul_eq_mul] at h0 h1
  by_cases hz : x 0 = 0
  · have hz1 : x 1 ≠ 0 := by
      intro hz1
      apply hx
      ext i
      fin_cases i
      · exact hz
      · exact hz1
    right
    exact le_of_eq (mul_right_cancel₀ hz1 h1)
  · left
    exact (mul_right_cancel₀ hz h0).symm

/-- Started with the first eigenvector, the value is below the middle of the gap and the bound applies. -/
example : ∃ r, modifiedDavidson realLib twoLevels 1 (some [Pi.single 0 1]) 5 (1 / 1000) 0 = .ok r ∧ ∃ h : 0 < r.eigvals.length,
    (1 : ℝ) ≤ r.eigvals[0] ∧ r.eigvals[0] - 1 ≤ 2 * (1 / 1000 * (1 / 1000)) / (2 - 1) := by
  have ho : Ortho [(Pi.single 0 1 : Fin 2 → ℝ)] := by rw [ortho_iff]; simp
  obtain ⟨r, r1, r2, _, r4, r5⟩ := C140_fixed realLib realLib_sqrt realLib_eigh realLib_qr twoLevels twoLevels_symm [Pi.single 0 1] ho (fun _ => 1)
    (fun i => by
      obtain rfl : i = 0 := Fin.ext (by have := i.2; simp only [List.length_singleton] at this; show (i : Nat) = 0; omega)
      exact twoLevels_mulVec 0) 0 (Or.inl rfl) 5 (by omega) (1 / 1000) (by norm_num)
  have h0 : 0 < r.eigvals.length := by rw [r4]; simp
  refine ⟨r, r1, h0, C140_first_value realLib realLib_sqrt realLib_eigh realLib_qr twoLevels twoLevels_symm 1 (some [Pi.single 0 1]) 5 (1 / 1000) 0
    r r1 r2 (Or.inr (Or.inl ⟨_, rfl, ho⟩)) 1 2 (by norm_num) twoLevels_gap h0 ?_⟩
  obtain ⟨_, h⟩ := r5 _ (List.getElem_mem h0)
  rw [h]
  norm_num

/-- 2 x 2 lattice, one hole, two up spins and a down spin, static terms only: started with the determinant number 3. -/
example : ∃ dets H, constructBasis (rectConf 2 2 1 1 1) = .ok dets ∧
    buildHamiltonian exEnv (rectConf 2 2 1 1 1) (⟨1, 2, 3, 4, 5, 6, 7, 8, 9, 10⟩ : Interactions ℝ) dets ⟨false, true, false, false, false, true⟩ [] true = .ok H ∧
    ∃ k : Fin H.dim, (k : Nat) = 3 ∧ ∃ r, modifiedDavidson realLib H.toMatrix 1 (some (unitVectors [k])) 5 (1 / 1000) 0 = .ok r ∧ r.converged = true := by
  have hc : RectConf (rectConf 2 2 1 1 1) 2 2 1 := rectConf_ok _ _ _ _ _ (by decide) (by decide) (by decide)
  have hf : Config.Full (rectConf 2 2 1 1 1) := by unfold Config.Full; decide
  obtain ⟨dets, H, a1, a2, _, a3, _⟩ := C30_no_failure exEnv _ 2 2 1 hc hf (by decide) (⟨1, 2, 3, 4, 5, 6, 7, 8, 9, 10⟩ : Interactions ℝ)
    ⟨false, true, false, false, false, true⟩ [] true
  have hd : H.dim = 12 := by
    have : (H.dim : Int) = 12 := a3.trans (by decide)
    omega
  obtain ⟨r, r1, r2, _⟩ := C140_static exEnv realLib realLib_sqrt realLib_eigh realLib_qr (rectConf 2 2 1 1 1) 2 2 1 hc hf (by decide)
    (⟨1, 2, 3, 4, 5, 6, 7, 8, 9, 10⟩ : Interactions ℝ) ⟨false, true, false, false, false, true⟩ ⟨rfl, rfl, rfl, rfl⟩ dets a1 H a2 [⟨3, by omega⟩]
    (by simp) 0 (Or.inl rfl) 5 (by omega) (1 / 1000) (by norm_num)
  exact ⟨dets, H, a1, a2, ⟨3, by omega⟩, rfl, r, r1, r2⟩

end TJ
