/-
Properties C82 and C83: growth of the search space, projection of a matrix.
-/
import Verif.Props.Davidson
import Verif.Lemmas.ExactLib
import Mathlib.Data.List.GetD

namespace TJ

open Matrix Finset

section
variable {K : Type} [Field K] [LinearOrder K] {d : Nat}

/-- Consecutive search spaces of a run. -/
theorem trace_next {L : LinAlg K} {A : Matrix (Fin d) (Fin d) K} {nbVal : Nat} {guess : Option (List (Fin d → K))}
    {stp : Nat} {tol : K} {dimMax : Nat} {r : DavidsonResult K d} (h : modifiedDavidson L A nbVal guess stp tol dimMax = .ok r)
    {k : Nat} (hk : k + 1 < r.trace.length) :
    NextSpace L A (min nbVal (if dimMax = 0 then d else dimMax)) tol (if dimMax = 0 then d else dimMax) r.trace[k] r.trace[k + 1] := by
  unfold modifiedDavidson at h
  dsimp only at h
  cases stp with
  | zero => cases h
  | succ stp =>
    obtain ⟨T, W, rs, t1, t2, t3, t4, t5, t6⟩ := davidsonLoop_result h
    rw [List.nil_append] at t1
    rw [← t1] at t3
    exact List.isChain_iff_getElem.1 t3 k hk

/-! ### C82 -/

/-- C82. What the next search space contains: orthonormal columns whose span contains Ritz vectors `u` of the
present one (orthonormal, with their Rayleigh quotients `lam`, if the present columns are orthonormal) and the Davidson corrections `c`, the
solutions of `(A_ii - lam) c_i = (lam u - A u)_i` wherever the denominator is not zero. -/
theorem C82_corrections (L : LinAlg K) (hq : L.ExactQr) (he : L.ExactEigh) (A : Matrix (Fin d) (Fin d) K) (hA : A.IsSymm) (nbVal : Nat)
    (guess : Option (List (Fin d → K))) (stp : Nat) (tol : K) (dimMax : Nat) (r : DavidsonResult K d)
    (h : modifiedDavidson L A nbVal guess stp tol dimMax = .ok r) (k : Nat) (hk : k + 1 < r.trace.length) :
    Ortho r.trace[k + 1] ∧ ∃ (lam : Fin (min nbVal (if dimMax = 0 then d else dimMax)) → K)
      (u c : Fin (min nbVal (if dimMax = 0 then d else dimMax)) → Fin d → K),
      (∀ j, InSpan r.trace[k] (u j)) ∧
      (Ortho r.trace[k] → (∀ i j, u i ⬝ᵥ u j = if i = j then 1 else 0) ∧ (∀ j, u j ⬝ᵥ (A *ᵥ u j) = lam j) ∧ ∀ i j, i ≤ j → lam i ≤ lam j) ∧
      (∃ j, ¬ L.norm (lam j • u j - A *ᵥ u j) ≤ tol) ∧
      (∀ j i, A i i ≠ lam j → (A i i - lam j) * c j i = lam j * u j i - (A *ᵥ u j) i) ∧
      ∀ j, InSpan r.trace[k + 1] (u j) ∧ InSpan r.trace[k + 1] (c j) := by
  have hn := trace_next h hk
  refine ⟨hn.ortho hq, ?_⟩
  generalize (min nbVal (if dimMax = 0 then d else dimMax)) = nb at hn ⊢
  generalize (if dimMax = 0 then d else dimMax) = dm at hn
  generalize r.trace[k + 1] = W' at hn ⊢
  generalize r.trace[k] = W at hn ⊢
  obtain ⟨vals, us, rs, corr, h1, h2, ⟨h3, h4⟩, h5⟩ := hn
  obtain ⟨n1, n2, n3, n4, n5⟩ := ritz_ok h1
  have hWin : ∀ j (hj : j < us.length), InSpan W us[j] := by
    obtain ⟨idx, _, _, _, g⟩ := ritz_spec L A W nb n1
    rw [g] at h1
    have h1 := Except.ok.inj h1
    simp only [Prod.mk.injEq] at h1
    obtain ⟨-, rfl, -⟩ := h1
    intro j hj
    exact ⟨_, by simp only [List.getElem_map]; rfl⟩
  refine ⟨fun j => vals[j], fun j => us[j], fun j => corr[j], fun j => hWin j _, ?_, ?_, ?_, ?_⟩
  · intro hW
    obtain ⟨o1, o2, o3⟩ := ritz_exact he hA hW h1
    refine ⟨fun i j => ?_, fun j => o2 j _ _, fun i j hij => ?_⟩
    · have := o1 ⟨i, by omega⟩ ⟨j, by omega⟩
      simpa [Fin.ext_iff] using this
    · rcases eq_or_lt_of_le hij with rfl | hlt
      · exact le_refl _
      · exact List.pairwise_iff_getElem.1 o3 i j (by omega) (by omega) hlt
  · obtain ⟨x, hx, hn⟩ := h2
    obtain ⟨j, hj, rfl⟩ := List.getElem_of_mem hx
    refine ⟨⟨j, by omega⟩, ?_⟩
    rwa [n5 j (by omega) (by omega) hj] at hn
  · intro j i hi
    have e := h4 j j.2
    rw [List.getD_eq_getElem _ _ (by omega), List.getD_eq_getElem _ _ (by omega), List.getD_eq_getElem _ _ (by omega),
      n5 j (by omega) (by omega) (by omega)] at e
    change A i i ≠ vals[(j : Nat)] at hi
    show (A i i - vals[(j : Nat)]) * corr[(j : Nat)] i = vals[(j : Nat)] * us[(j : Nat)] i - (A *ᵥ us[(j : Nat)]) i
    rw [e]
    unfold precondition
    rw [← mul_assoc, mul_one_div_cancel (sub_ne_zero.2 hi), one_mul]
    rfl
  · intro j
    have j1 : us[(j : Nat)] ∈ us := List.getElem_mem _
    have j2 : corr[(j : Nat)] ∈ corr := List.getElem_mem _
    show InSpan W' us[(j : Nat)] ∧ InSpan W' corr[(j : Nat)]
    rw [h5]
    split_ifs
    · exact ⟨(hq d _).2.2 _ (List.mem_append_left _ j1), (hq d _).2.2 _ (List.mem_append_right _ j2)⟩
    · exact ⟨(hWin j (by omega)).mono (fun v hv => (hq d _).2.2 _ (List.mem_append_left _ hv)),
        (hq d _).2.2 _ (List.mem_append_right _ j2)⟩

/-- C82, part: if `dim_max ≥ dim + nb_val` the next search space contains the present one and has `nb_val` more columns (or all).
Missing: smaller `dim_max`, where this should hold until the search space has more than `dim_max - nb_val` columns, see
`C82_no_growth`. -/
theorem C82_grows_partial (L : LinAlg K) (hq : L.ExactQr) (A : Matrix (Fin d) (Fin d) K) (nbVal : Nat)
    (guess : Option (List (Fin d → K))) (stp : Nat) (tol : K) (dimMax : Nat) (hm : d + nbVal ≤ dimMax) (hd : 1 ≤ dimMax) (r : DavidsonResult K d)
    (h : modifiedDavidson L A nbVal guess stp tol dimMax = .ok r) (k : Nat) (hk : k + 1 < r.trace.length) :
    r.trace[k + 1].length = min d (r.trace[k].length + nbVal) ∧ ∀ v, InSpan r.trace[k] v → InSpan r.trace[k + 1] v := by
  obtain ⟨_, _, _, corr, _, _, ⟨hc, _⟩, h5⟩ := trace_next h hk
  rw [if_neg (by omega : ¬ dimMax = 0), show min nbVal dimMax = nbVal by omega, if_neg (by omega)] at h5
  rw [if_neg (by omega : ¬ dimMax = 0), show min nbVal dimMax = nbVal by omega] at hc
  rw [h5]
  refine ⟨by rw [(hq d _).1, List.length_append, hc], fun v hv => ?_⟩
  exact hv.mono (fun x hx => (hq d _).2.2 _ (List.mem_append_left _ hx))

/-- C82. The test looks at the number of rows: if `dim_max < dim + nb_val`, in particular for the default value, the search space is
restarted in every iteration and never has more than `2 nb_val` columns. -/
theorem C82_always_restarts (L : LinAlg K) (hq : L.ExactQr) (A : Matrix (Fin d) (Fin d) K) (nbVal : Nat)
    (guess : Option (List (Fin d → K))) (stp : Nat) (tol : K) (dimMax : Nat)
    (hm : (if dimMax = 0 then d else dimMax) < d + min nbVal (if dimMax = 0 then d else dimMax)) (r : DavidsonResult K d)
    (h : modifiedDavidson L A nbVal guess stp tol dimMax = .ok r) (k : Nat) (hk : k + 1 < r.trace.length) :
    r.trace[k + 1].length = min d (2 * min nbVal (if dimMax = 0 then d else dimMax)) := by
  obtain ⟨_, us, _, corr, h1, _, ⟨hc, _⟩, h5⟩ := trace_next h hk
  obtain ⟨_, _, n3, _⟩ := ritz_ok h1
  rw [if_pos (by omega)] at h5
  rw [h5, (hq d _).1, List.length_append, hc, n3, two_mul]

/-- C82 fails: with the default `dim_max` a search space of `2 nb_val` columns, to which `nb_val` could be added without exceeding the
limit, is not extended. -/
theorem C82_no_growth (L : LinAlg K) (hq : L.ExactQr) (A : Matrix (Fin d) (Fin d) K) (nbVal : Nat) (h1 : 1 ≤ nbVal) (h3 : 3 * nbVal ≤ d)
    (guess : Option (List (Fin d → K))) (stp : Nat) (tol : K) (r : DavidsonResult K d)
    (h : modifiedDavidson L A nbVal guess stp tol 0 = .ok r) (k : Nat) (hk : k + 2 < r.trace.length) :
    r.trace[k + 1].length + nbVal ≤ d ∧ r.trace[k + 2].length = r.trace[k + 1].length := by
  have e1 := C82_always_restarts L hq A nbVal guess stp tol 0 (by rw [if_pos rfl]; omega) r h k (by omega)
  have e2 := C82_always_restarts L hq A nbVal guess stp tol 0 (by rw [if_pos rfl]; omega) r h (k + 1) hk
  rw [if_pos rfl] at e1 e2
  exact ⟨by omega, by rw [e1, e2]⟩

end

/-- A run with three search spaces of 2, 4 and 4 columns in dimension 6. -/
example (A : Matrix (Fin 6) (Fin 6) ℝ) : ∃ r, modifiedDavidson realLib A 2 none 3 (-1) 0 = .ok r ∧ r.trace.map List.length = [2, 4, 4] := by
  obtain ⟨r, hr⟩ := davidsonLoop_ok realLib_qr (A := A) (nb := 2) (tol := -1) (dimMax := 6) (by omega) (stp := 2)
    (V := realLib.qr 6 (realLib.rand 6 2)) (last := none) (trace := []) (by rw [(realLib_qr 6 _).1, realLib_rand]; omega)
  have h : modifiedDavidson realLib A 2 none 3 (-1) 0 = .ok r := hr
  have hc : r.converged = false := by
    by_contra hcon
    have hcon : r.converged = true := by simpa using hcon
    obtain ⟨_, _, rs, _, _, _, t4, t5, _⟩ := davidsonLoop_result hr
    obtain ⟨_, _, _, n4, _⟩ := ritz_ok t4
    have := (t5.1 hcon) (rs[0]'(by omega)) (List.getElem_mem (by omega))
    have h0 : (0 : ℝ) ≤ realLib.norm (rs[0]'(by omega)) := Real.sqrt_nonneg _
    linarith
  obtain ⟨T, _, _, t1, _, _, _, _, t6⟩ := davidsonLoop_result hr
  have hT := t6 hc
  rw [List.nil_append] at t1
  have hl : r.trace.length = 3 := by rw [t1, List.length_cons, hT]
  refine ⟨r, h, ?_⟩
  have e0 : r.trace[0].length = 2 := by
    simp only [t1, List.getElem_cons_zero]
    rw [(realLib_qr 6 _).1, realLib_rand]; rfl
  have e1 := C82_always_restarts realLib realLib_qr A 2 none 3 (-1) 0 (by decide) r h 0 (by omega)
  have e2 := C82_always_restarts realLib realLib_qr A 2 none 3 (-1) 0 (by decide) r h 1 (by omega)
  apply List.ext_getElem (by simp [hl])
  intro i h1 h2
  rw [List.getElem_map]
  have : i = 0 ∨ i = 1 ∨ i = 2 := by simp at h2; omega
  rcases this with rfl | rfl | rfl
  · exact e0
  · exact e1
  · exact e2

/-! ### C83 -/

section
variable {K : Type} [Field K] [LinearOrder K] [IsStrictOrderedRing K] {d : Nat}

/-- An orthonormal basis whose first vectors span the same space as `vs`. -/
theorem orth_split {m n : Nat} (h : d = m + n) {w : Fin d → Fin d → K} (hw : ∀ i j, w i ⬝ᵥ w j = if i = j then 1 else 0)
    {vs : Fin m → Fin d → K} (hv : ∀ i j, vs i ⬝ᵥ vs j = if i = j then 1 else 0) (h0 : ∀ i (k : Fin d), m ≤ (k : Nat) → w k ⬝ᵥ vs i = 0)
    {x : Fin d → K} (hx : ∀ i, vs i ⬝ᵥ x = 0) (k : Fin d) (hk : (k : Nat) < m) : w k ⬝ᵥ x = 0 := by
  subst h
  have hz : ∀ i (k : Fin n), w (Fin.natAdd m k) ⬝ᵥ vs i = 0 := fun i k => h0 i _ (by simp)
  let M : Matrix (Fin m) (Fin m) K := fun i j => w (Fin.castAdd n j) ⬝ᵥ vs i
  have hM : M * Mᵀ = 1 := by
    ext i j
    have e := complete hw (vs i) (vs j)
    rw [Fin.sum_univ_add, sum_eq_zero (f := fun k => w (Fin.natAdd m k) ⬝ᵥ vs i * w (Fin.natAdd m k) ⬝ᵥ vs j)
      (fun k _ => by rw [hz, zero_mul]), add_zero, hv] at e
    rw [mul_apply, one_apply, e]
    rfl
  have hM' := mul_eq_one_comm.1 hM
  let c : Fin m → K := fun j => w (Fin.castAdd n j) ⬝ᵥ x
  have hc : M *ᵥ c = 0 := by
    ext i
    have e := complete hw (vs i) x
    rw [Fin.sum_univ_add, sum_eq_zero (f := fun k => w (Fin.natAdd m k) ⬝ᵥ vs i * w (Fin.natAdd m k) ⬝ᵥ x)
      (fun k _ => by rw [hz, zero_mul]), add_zero, hx] at e
    exact e.symm
  have hc0 : c = 0 := by
    rw [← one_mulVec c, ← hM', ← mulVec_mulVec, hc, mulVec_zero]
  exact congrFun hc0 ⟨k, hk⟩

omit [Field K] [LinearOrder K] [IsStrictOrderedRing K] in
theorem slice_cast {n k m : Nat} (h : n = k) (P : Matrix (Fin n) (Fin n) K) :
    (⟨n - m, sliceFrom m P⟩ : Σ n, Matrix (Fin n) (Fin n) K) =
      ⟨k - m, fun i j => P ⟨m + i, by omega⟩ ⟨m + j, by omega⟩⟩ := by
  subst h
  rfl

/-- C83. For orthonormal columns `vects` the result is the matrix of `A` in an orthonormal basis `W` of the orthogonal complement of
`vects`, although the columns of ones are linearly dependent. -/
theorem C83_compression (L : LinAlg K) (hq : L.ExactQr) (hn : L.NestedQr) (A : Matrix (Fin d) (Fin d) K) (vects : List (Fin d → K))
    (ho : Ortho vects) (hd : vects.length ≤ d) :
    ∃ (P : Matrix (Fin (d - vects.length)) (Fin (d - vects.length)) K) (W : Fin (d - vects.length) → Fin d → K),
      performMatrixOrthogonalProjection L A vects = .ok ⟨_, P⟩ ∧
      (∀ i j, W i ⬝ᵥ W j = if i = j then 1 else 0) ∧ (∀ v ∈ vects, ∀ i, v ⬝ᵥ W i = 0) ∧
      (∀ x, (∀ v ∈ vects, v ⬝ᵥ x = 0) → ∀ y, x ⬝ᵥ y = ∑ i, (W i ⬝ᵥ x) * (W i ⬝ᵥ y)) ∧
      ∀ i j, P i j = W i ⬝ᵥ (A *ᵥ W j) := by
  obtain ⟨q1, q2, q3⟩ := hq d (vects ++ List.replicate (d - vects.length) (fun _ => 1))
  have q4 := hn d (vects ++ List.replicate (d - vects.length) (fun _ => 1)) vects.length
  unfold performMatrixOrthogonalProjection
  rw [if_neg (by omega)]
  dsimp only
  generalize L.qr d (vects ++ List.replicate (d - vects.length) (fun _ => 1)) = Q at q1 q2 q3 q4
  rw [List.take_append_of_le_length le_rfl, List.take_of_length_le le_rfl] at q4
  have hQ : Q.length = d := by
    rw [q1, List.length_append, List.length_replicate]; omega
  set m := vects.length with hm
  have horth : ∀ v ∈ vects, ∀ (i : Nat) (hi : i < Q.length), m ≤ i → Q[i] ⬝ᵥ v = 0 := by
    intro v hv i hi hmi
    obtain ⟨y, hy⟩ := q4 v hv
    rw [hy, dotProduct_sum]
    refine sum_eq_zero fun k _ => ?_
    have hk : (k : Nat) < m := lt_of_lt_of_le k.2 (by simp)
    have : (Q.take m).get k = Q.get ⟨k, by omega⟩ := by simp
    rw [this, dotProduct_smul]
    have e := q2 ⟨i, hi⟩ ⟨k, by omega⟩
    rw [if_neg (by simp [Fin.ext_iff]; omega)] at e
    show y k • (Q.get ⟨i, hi⟩ ⬝ᵥ _) = 0
    rw [e, smul_zero]
  have hw : ∀ i j : Fin d, Q[(i : Nat)] ⬝ᵥ Q[(j : Nat)] = if i = j then 1 else 0 := by
    intro i j
    have := q2 ⟨i, by omega⟩ ⟨j, by omega⟩
    simpa [Fin.ext_iff] using this
  refine ⟨_, fun i => Q[m + (i : Nat)], congrArg Except.ok (slice_cast hQ _), ?_, ?_, ?_, fun i j => rfl⟩
  · intro i j
    have := hw ⟨m + i, by omega⟩ ⟨m + j, by omega⟩
    simpa [Fin.ext_iff] using this
  · intro v hv i
    rw [dotProduct_comm]
    exact horth v hv _ _ (by omega)
  · intro x hx y
    have h0 := fun k hk => orth_split (d := d) (m := m) (n := d - m) (by omega) (w := fun i => Q[(i : Nat)]) hw (vs := fun i => vects[(i : Nat)])
      (fun i j => by have := ho i j; simpa [Fin.ext_iff] using this) (fun i k hk => horth _ (List.getElem_mem _) _ _ hk) (x := x)
      (fun i => hx _ (List.getElem_mem _)) k hk
    have e := complete hw x y
    rw [e]
    clear e
    generalize hf : (fun k : Fin d => (Q[(k : Nat)] ⬝ᵥ x) * (Q[(k : Nat)] ⬝ᵥ y)) = f
    have hf0 : ∀ k : Fin d, (k : Nat) < m → f k = 0 := fun k hk => by rw [← hf]; dsimp only; rw [h0 k hk, zero_mul]
    have hf1 : ∀ i : Fin (d - m), (Q[m + (i : Nat)] ⬝ᵥ x) * (Q[m + (i : Nat)] ⬝ᵥ y) = f ⟨m + i, by omega⟩ := fun i => by rw [← hf]
    rw [sum_congr rfl (fun i _ => hf1 i)]
    clear hf hf1
    obtain ⟨n, hn⟩ : ∃ n, d = m + n := ⟨d - m, by omega⟩
    have key : ∀ (D n : Nat) (h : D = m + n) (f : Fin D → K), (∀ k : Fin D, (k : Nat) < m → f k = 0) →
        ∑ k, f k = ∑ i : Fin (D - m), f ⟨m + i, by omega⟩ := by
      intro D n h f hf
      subst h
      rw [Fin.sum_univ_add, sum_eq_zero (fun k _ => hf _ (by simp)), zero_add]
      refine Fintype.sum_equiv (finCongr (by omega)) _ _ (fun k => ?_)
      congr 1
    exact key d n hn f hf0

/-- C83. If the columns `vects` are eigenvectors of the symmetric matrix `A`, the eigenvalues of the result are the remaining eigenvalues: those
with an eigenvector orthogonal to `vects`. -/
theorem C83_spectrum (L : LinAlg K) (hq : L.ExactQr) (hn : L.NestedQr) (A : Matrix (Fin d) (Fin d) K) (hA : A.IsSymm)
    (vects : List (Fin d → K)) (ho : Ortho vects) (hd : vects.length ≤ d) (he : ∀ v ∈ vects, ∃ mu : K, A *ᵥ v = mu • v) :
    ∃ n P, performMatrixOrthogonalProjection L A vects = .ok ⟨n, P⟩ ∧ n = d - vects.length ∧ ∀ lam : K,
      (∃ y, y ≠ 0 ∧ P *ᵥ y = lam • y) ↔ ∃ x, x ≠ 0 ∧ (∀ v ∈ vects, v ⬝ᵥ x = 0) ∧ A *ᵥ x = lam • x := by
  obtain ⟨P, W, h1, h2, h3, h4, h5⟩ := C83_compression L hq hn A vects ho hd
  refine ⟨_, P, h1, rfl, fun lam => ?_⟩
  -- combinations of `W`
  have hW : ∀ (y : Fin (d - vects.length) → K), (∀ i, W i ⬝ᵥ ∑ j, y j • W j = y i) ∧ (∀ v ∈ vects, v ⬝ᵥ ∑ j, y j • W j = 0) ∧
      ∀ i, W i ⬝ᵥ (A *ᵥ ∑ j, y j • W j) = (P *ᵥ y) i := by
    intro y
    refine ⟨fun i => ?_, fun v hv => ?_, fun i => ?_⟩
    · simp [dotProduct_sum, dotProduct_smul, h2]
    · rw [dotProduct_sum]
      exact sum_eq_zero fun j _ => by rw [dotProduct_smul, h3 v hv, smul_zero]
    · rw [mulVec_sum, dotProduct_sum]
      refine sum_congr rfl fun j _ => ?_
      rw [mulVec_smul, dotProduct_smul, ← h5, smul_eq_mul, mul_comm]
  have hzero : ∀ z : Fin d → K, (∀ v ∈ vects, v ⬝ᵥ z = 0) → (∀ i, W i ⬝ᵥ z = 0) → z = 0 := by
    intro z z1 z2
    have := h4 z z1 z
    rw [sum_eq_zero (fun i _ => by rw [z2, zero_mul])] at this
    exact dotProduct_self_eq_zero.1 this
  constructor
  · rintro ⟨y, y0, hy⟩
    obtain ⟨w1, w2, w3⟩ := hW y
    refine ⟨∑ j, y j • W j, ?_, w2, ?_⟩
    · intro hx
      apply y0
      ext i
      rw [← w1 i, hx, dotProduct_zero]
      rfl
    · refine sub_eq_zero.1 (hzero _ (fun v hv => ?_) (fun i => ?_))
      · obtain ⟨mu, hmu⟩ := he v hv
        rw [dotProduct_sub, dotProduct_smul, w2 v hv, smul_zero, sub_zero, dotProduct_mulVec, ← mulVec_transpose, hA.eq, hmu, smul_dotProduct,
          w2 v hv, smul_zero]
      · rw [dotProduct_sub, dotProduct_smul, w1, w3, hy]
        simp
  · rintro ⟨x, x0, x1, hx⟩
    obtain ⟨w1, w2, w3⟩ := hW (fun i => W i ⬝ᵥ x)
    have hsum : x = ∑ j, (W j ⬝ᵥ x) • W j := by
      refine sub_eq_zero.1 (hzero _ (fun v hv => ?_) (fun i => ?_))
      · rw [dotProduct_sub, x1 v hv, w2 v hv, sub_zero]
      · rw [dotProduct_sub, w1, sub_self]
    refine ⟨fun i => W i ⬝ᵥ x, ?_, ?_⟩
    · intro h0
      apply x0
      exact hzero x x1 (fun i => congrFun h0 i)
    · ext i
      rw [← w3 i, ← hsum, hx, dotProduct_smul]
      rfl

omit [LinearOrder K] [IsStrictOrderedRing K] in
/-- C83. More columns than rows raise `ValueError`. -/
theorem C83_too_many (L : LinAlg K) (A : Matrix (Fin d) (Fin d) K) (vects : List (Fin d → K)) (hd : d < vects.length) :
    performMatrixOrthogonalProjection L A vects = .error .valueError := if_pos hd

end

/-- Projection of a diagonal matrix along its first eigenvector: 2 and 3 remain, 1 does not. -/
example : ∃ n P, performMatrixOrthogonalProjection realLib (Matrix.diagonal ![(1 : ℝ), 2, 3]) [![1, 0, 0]] = .ok ⟨n, P⟩ ∧ n = 2 ∧
    (∃ y, y ≠ 0 ∧ P *ᵥ y = (2 : ℝ) • y) ∧ ¬ ∃ y, y ≠ 0 ∧ P *ᵥ y = (1 : ℝ) • y := by
  have ho : Ortho [(![1, 0, 0] : Fin 3 → ℝ)] := by
    intro i j
    have hi : i = 0 := Subsingleton.elim (α := Fin 1) _ _
    have hj : j = 0 := Subsingleton.elim (α := Fin 1) _ _
    subst hi; subst hj
    simp [dotProduct, Fin.sum_univ_three]
  obtain ⟨n, P, h1, h2, h3⟩ := C83_spectrum realLib realLib_qr realLib_nested (Matrix.diagonal ![(1 : ℝ), 2, 3]) (isSymm_diagonal _)
    [![1, 0, 0]] ho (by simp) (by
      intro v hv
      rw [List.mem_singleton.1 hv]
      refine ⟨1, ?_⟩
      ext i
      fin_cases i <;> simp [mulVec_diagonal])
  refine ⟨n, P, h1, h2, ?_, ?_⟩
  · refine (h3 2).2 ⟨![0, 1, 0], ?_, ?_, ?_⟩
    · intro h
      have := congrFun h 1
      simp at this
    · intro v hv
      rw [List.mem_singleton.1 hv]
      simp [dotProduct, Fin.sum_univ_three]
    · ext i
      fin_cases i <;> simp [mulVec_diagonal]
  · rw [h3 1]
    rintro ⟨x, x0, x1, x2⟩
    apply x0
    have e0 := x1 _ (List.mem_singleton.2 rfl)
    have e1 := congrFun x2 1
    have e2 := congrFun x2 2
    simp [mulVec_diagonal] at e1 e2
    simp [dotProduct, Fin.sum_univ_three] at e0
    ext i
    fin_cases i
    · exact e0
    · show x 1 = 0; linarith
    · show x 2 = 0; linarith

end TJ
