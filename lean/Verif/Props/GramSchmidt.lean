/-
Property C71: the Gram-Schmidt procedure.
-/
import Verif.Props.Davidson2

namespace TJ

open Matrix Finset

section
variable {K : Type} [Field K] [LinearOrder K] [IsStrictOrderedRing K] {d : Nat}

/-- No column is a combination of the columns before it. -/
def Independent (V : List (Fin d → K)) : Prop := ∀ k (h : k < V.length), ¬ InSpan (V.take k) V[k]

theorem norm_pos_of_ne {L : LinAlg K} (hL : L.ExactSqrt) {t : Fin d → K} (h : t ≠ 0) : 0 < L.norm t := by
  have h1 := (hL _ (dot_self_nonneg t)).1
  have h2 := (hL _ (dot_self_nonneg t)).2
  rcases h1.lt_or_eq with h3 | h3
  · exact h3
  · rw [← h3, mul_zero] at h2
    exact absurd (dotProduct_self_eq_zero.1 h2.symm) h

theorem gs_inner {new : List (Fin d → K)} (hn : Ortho new) (rest : List (Fin d → K)) (v : Fin d → K) :
    (List.range new.length).foldlM (fun (vect : Fin d → K) prec => (do
      let p ← pyGet (new ++ rest) prec
      return vect - ((vect ⬝ᵥ p) / (p ⬝ᵥ p)) • p : Py (Fin d → K))) v =
      .ok (new.foldl (fun t q => (1 - vecMulVec q q) *ᵥ t) v) := by
  have key : ∀ k ≤ new.length, (List.range k).foldlM (fun (vect : Fin d → K) prec => (do
      let p ← pyGet (new ++ rest) prec
      return vect - ((vect ⬝ᵥ p) / (p ⬝ᵥ p)) • p : Py (Fin d → K))) v =
      .ok ((new.take k).foldl (fun t q => (1 - vecMulVec q q) *ᵥ t) v) := by
    intro k
    induction k with
    | zero => intro _; rfl
    | succ k ih =>
      intro hk
      refine foldlM_range_succ (ih (by omega)) ?_
      have hg : pyGet (new ++ rest) k = .ok new[k] := by
        unfold pyGet
        rw [List.getElem?_append_left (by omega), List.getElem?_eq_getElem (by omega)]
      refine bind_ok hg ?_
      have h1 : new[k] ⬝ᵥ new[k] = 1 := ((ortho_iff _).1 hn).1 _ (List.getElem_mem _)
      rw [List.take_add_one, List.getElem?_eq_getElem (by omega), List.foldl_append]
      simp only [Option.toList_some, List.foldl_cons, List.foldl_nil]
      rw [h1, div_one, project_one, dotProduct_comm]
      rfl
  have := key new.length (le_refl _)
  rwa [List.take_length] at this

/-- The columns treated so far: orthonormal, spanning the same space as the given ones. -/
theorem gs_loop {L : LinAlg K} (hL : L.ExactSqrt) {V : List (Fin d → K)} (hV : Independent V) (h1 : 1 ≤ V.length) :
    ∀ n, n + 1 ≤ V.length → ∃ new : List (Fin d → K), new.length = n + 1 ∧ Ortho new ∧
      (∀ k, k ≤ n + 1 → (∀ x ∈ V.take k, InSpan (new.take k) x) ∧ ∀ x ∈ new.take k, InSpan (V.take k) x) ∧
      ∀ A, pySet (List.replicate V.length (0 : Fin d → K)) 0 ((L.norm V[0])⁻¹ • V[0]) = .ok A →
      (List.range' 1 n).foldlM (fun (A : List (Fin d → K)) col => (do
        let v ← pyGet V col
        let vect ← (List.range col).foldlM (fun (vect : Fin d → K) prec => do
          let p ← pyGet A prec
          return vect - ((vect ⬝ᵥ p) / (p ⬝ᵥ p)) • p) v
        pySet A col ((L.norm vect)⁻¹ • vect) : Py (List (Fin d → K)))) A = .ok (new ++ List.replicate (V.length - (n + 1)) 0) := by
  intro n
  induction n with
  | zero =>
    intro _
    have hne : V[0] ≠ 0 := by
      intro h
      exact hV 0 h1 (by rw [h]; exact inSpan_zero _)
    have hpos := norm_pos_of_ne hL hne
    refine ⟨[(L.norm V[0])⁻¹ • V[0]], rfl, ?_, ?_, ?_⟩
    · have := ortho_append (V := []) (by intro i; exact i.elim0) (norm_inv_smul hL hpos) (by simp)
      simpa using this
    · intro k hk
      rcases Nat.le_one_iff_eq_zero_or_eq_one.1 (by omega : k ≤ 1) with rfl | rfl
      · simp
      · have ht : V.take 1 = [V[0]] := by
          rw [List.take_one, List.head?_eq_getElem?, List.getElem?_eq_getElem h1]; rfl
        rw [ht, List.take_of_length_le (by simp)]
        refine ⟨?_, ?_⟩
        · intro x hx
          rw [List.mem_singleton.1 hx]
          have := inSpan_smul (inSpan_get (V := [(L.norm V[0])⁻¹ • V[0]]) (List.mem_singleton.2 rfl)) (L.norm V[0])
          rwa [smul_smul, mul_inv_cancel₀ (ne_of_gt hpos), one_smul] at this
        · intro x hx
          rw [List.mem_singleton.1 hx]
          exact inSpan_smul (inSpan_get (List.mem_singleton.2 rfl)) _
    · intro A hA
      unfold pySet at hA
      rw [if_pos (by rw [List.length_replicate]; omega)] at hA
      rw [← Except.ok.inj hA]
      show Except.ok _ = Except.ok _
      obtain ⟨m, hm⟩ : ∃ m, V.length = m + 1 := ⟨V.length - 1, by omega⟩
      congr 1
      rw [hm, List.replicate_succ]
      simp
  | succ n ih =>
    intro hn
    obtain ⟨new, n1, n2, n3, n4⟩ := ih (by omega)
    set v := V[n + 1] with hv
    obtain ⟨p1, p2⟩ := project_pass new n2 v
    set t := new.foldl (fun t q => (1 - vecMulVec q q) *ᵥ t) v with ht
    have hnt : new.take (n + 1) = new := List.take_of_length_le (by omega)
    have hne : t ≠ 0 := by
      intro h
      rw [h, sub_zero] at p2
      refine hV (n + 1) hn (p2.mono ?_)
      have := (n3 (n + 1) (le_refl _)).2
      rwa [hnt] at this
    have hpos := norm_pos_of_ne hL hne
    have htake : V.take (n + 2) = V.take (n + 1) ++ [v] := by
      rw [List.take_add_one, List.getElem?_eq_getElem (by omega)]; rfl
    refine ⟨new ++ [(L.norm t)⁻¹ • t], by simp [n1], ?_, ?_, ?_⟩
    · refine ortho_append n2 (norm_inv_smul hL hpos) ?_
      intro q hq
      rw [dotProduct_smul, p1 q hq, smul_zero]
    · intro k hk
      rcases Nat.lt_or_ge k (n + 2) with hk' | hk'
      · rw [List.take_append_of_le_length (by omega)]
        exact n3 k (by omega)
      · have : k = n + 2 := by omega
        subst this
        rw [htake, List.take_of_length_le (l := new ++ _) (by simp [n1])]
        have hb := n3 (n + 1) (le_refl _)
        rw [hnt] at hb
        refine ⟨?_, ?_⟩
        · intro x hx
          rcases List.mem_append.1 hx with hx | hx
          · exact inSpan_append (hb.1 x hx)
          · rw [List.mem_singleton.1 hx]
            have h1 := inSpan_smul (inSpan_get (V := new ++ [(L.norm t)⁻¹ • t]) (v := (L.norm t)⁻¹ • t) (by simp)) (L.norm t)
            rw [smul_smul, mul_inv_cancel₀ (ne_of_gt hpos), one_smul] at h1
            have := inSpan_add (inSpan_append (W := [(L.norm t)⁻¹ • t]) p2) h1
            rwa [sub_add_cancel] at this
        · intro x hx
          rcases List.mem_append.1 hx with hx | hx
          · exact inSpan_append (hb.2 x hx)
          · rw [List.mem_singleton.1 hx]
            refine inSpan_smul ?_ _
            have h1 : InSpan (V.take (n + 1) ++ [v]) (v - t) := (p2.mono hb.2).mono fun x hx => inSpan_get (List.mem_append_left _ hx)
            have h2 : InSpan (V.take (n + 1) ++ [v]) v := inSpan_get (by simp)
            have := inSpan_add h2 (inSpan_smul h1 (-1))
            have e : v + (-1 : K) • (v - t) = t := by rw [neg_one_smul]; abel
            rwa [e] at this
    · intro A hA
      have := n4 A hA
      rw [List.range'_1_concat, List.foldlM_append, this]
      refine bind_ok rfl ?_
      rw [List.foldlM_cons]
      have hg : pyGet V (1 + n) = .ok v := by
        unfold pyGet
        rw [List.getElem?_eq_getElem (by omega)]
        simp only [hv]
        congr 2
        omega
      refine bind_ok (a := new ++ [(L.norm t)⁻¹ • t] ++ List.replicate (V.length - (n + 1 + 1)) 0) (bind_ok hg ?_) rfl
      have hin := gs_inner n2 (List.replicate (V.length - (n + 1)) 0) v
      rw [show new.length = 1 + n by omega] at hin
      refine bind_ok hin ?_
      unfold pySet
      rw [if_pos (by simp [n1]; omega)]
      congr 1
      obtain ⟨m, hm⟩ : ∃ m, V.length - (n + 1) = m + 1 := ⟨V.length - (n + 1) - 1, by omega⟩
      have hm' : V.length - (n + 1 + 1) = m := by omega
      rw [hm, hm', List.set_append_right _ _ (by omega), n1, List.replicate_succ]
      have : 1 + n - (n + 1) = 0 := by omega
      rw [this]
      simp [ht]

/-- C71, part: for a square array with independent columns, `gramSchmidt` returns orthonormal columns, and
for each `k` the first `k` columns span the same space as the first `k` given columns. Missing: arrays with
fewer columns than rows, where the function raises an exception (`C71_rectangular_fails`). -/
theorem C71_gram_schmidt_partial (L : LinAlg K) (hL : L.ExactSqrt) (V : List (Fin d → K)) (hd : V.length = d) (h1 : 1 ≤ d)
    (hV : Independent V) : ∃ Q, gramSchmidt L V = .ok Q ∧ Q.length = d ∧ Ortho Q ∧
      ∀ k ≤ d, (∀ x ∈ V.take k, InSpan (Q.take k) x) ∧ ∀ x ∈ Q.take k, InSpan (V.take k) x := by
  obtain ⟨new, n1, n2, n3, n4⟩ := gs_loop hL hV (by omega) (d - 1) (by omega)
  refine ⟨new, ?_, by omega, n2, ?_⟩
  · unfold gramSchmidt
    have hg : pyGet V 0 = .ok V[0] := by
      unfold pyGet; rw [List.getElem?_eq_getElem (by omega)]
    refine bind_ok hg ?_
    have hs : pySet (List.replicate V.length (0 : Fin d → K)) 0 ((L.norm V[0])⁻¹ • V[0]) =
        .ok ((List.replicate V.length (0 : Fin d → K)).set 0 ((L.norm V[0])⁻¹ • V[0])) := by
      unfold pySet; rw [if_pos (by simp; omega)]
    refine bind_ok hs ?_
    rw [n4 _ hs]
    have : V.length - (d - 1 + 1) = 0 := by omega
    rw [this]
    simp
  · intro k hk
    exact n3 k (by omega)

omit [IsStrictOrderedRing K] [LinearOrder K] in
theorem pyGet_out {α : Type} {l : List α} {i : Nat} (h : l.length ≤ i) : pyGet l i = .error .indexError := by
  unfold pyGet
  rw [List.getElem?_eq_none h]

omit [IsStrictOrderedRing K] in
/-- C71 fails for rectangular arrays: with fewer columns than rows the loop over the rows reaches a column
that does not exist, for all inputs. -/
theorem C71_rectangular_fails (L : LinAlg K) (V : List (Fin d → K)) (hd : V.length < d) : gramSchmidt L V = .error .indexError := by
  unfold gramSchmidt
  rcases Nat.eq_zero_or_pos V.length with h0 | h0
  · rw [pyGet_out (by omega)]; rfl
  · have hg : pyGet V 0 = .ok V[0] := by
      unfold pyGet; rw [List.getElem?_eq_getElem (by omega)]
    refine bind_ok hg ?_
    have hs : pySet (List.replicate V.length (0 : Fin d → K)) 0 ((L.norm V[0])⁻¹ • V[0]) =
        .ok ((List.replicate V.length (0 : Fin d → K)).set 0 ((L.norm V[0])⁻¹ • V[0])) := by
      unfold pySet; rw [if_pos (by simp; omega)]
    refine bind_ok hs ?_
    have hsplit : List.range' 1 (d - 1) = List.range' 1 (V.length - 1) ++ V.length :: List.range' (V.length + 1) (d - 1 - V.length) := by
      have h1 : List.range' 1 (d - 1) = List.range' 1 (V.length - 1) ++ List.range' V.length (d - V.length) := by
        have := @List.range'_append 1 (V.length - 1) (d - V.length) 1
        have e : 1 + 1 * (V.length - 1) = V.length := by omega
        have e2 : V.length - 1 + (d - V.length) = d - 1 := by omega
        rw [e, e2] at this
        exact this.symm
      rw [h1]
      obtain ⟨m, hm⟩ : ∃ m, d - V.length = m + 1 := ⟨d - V.length - 1, by omega⟩
      have : d - 1 - V.length = m := by omega
      rw [hm, this, List.range'_succ]
    rw [hsplit, List.foldlM_append]
    have hall : ∀ (l : List Nat) (A : List (Fin d → K)), A.length = V.length → (∀ c ∈ l, 0 < c ∧ c < V.length) →
        ∃ B, l.foldlM (fun (A : List (Fin d → K)) col => (do
          let v ← pyGet V col
          let vect ← (List.range col).foldlM (fun (vect : Fin d → K) prec => do
            let p ← pyGet A prec
            return vect - ((vect ⬝ᵥ p) / (p ⬝ᵥ p)) • p) v
          pySet A col ((L.norm vect)⁻¹ • vect) : Py (List (Fin d → K)))) A = .ok B := by
      intro l
      induction l with
      | nil => intro A _ _; exact ⟨A, rfl⟩
      | cons c l ih =>
        intro A hA hl
        have hc := hl c (by simp)
        have hg : pyGet V c = .ok V[c] := by
          unfold pyGet; rw [List.getElem?_eq_getElem (by omega)]
        have hin : ∀ (m : List Nat) (v : Fin d → K), (∀ i ∈ m, i < A.length) → ∃ w, m.foldlM (fun (vect : Fin d → K) prec => (do
            let p ← pyGet A prec
            return vect - ((vect ⬝ᵥ p) / (p ⬝ᵥ p)) • p : Py (Fin d → K))) v = .ok w := by
          intro m
          induction m with
          | nil => intro v _; exact ⟨v, rfl⟩
          | cons i m ihm =>
            intro v hm
            have hg : pyGet A i = .ok (A[i]'(hm i (by simp))) := by
              unfold pyGet; rw [List.getElem?_eq_getElem (hm i (by simp))]
            obtain ⟨w, hw⟩ := ihm _ (fun j hj => hm j (by simp [hj]))
            refine ⟨w, ?_⟩
            rw [List.foldlM_cons]
            exact bind_ok (bind_ok hg rfl) hw
        obtain ⟨w, hw⟩ := hin (List.range c) V[c] (by intro i hi; have := List.mem_range.1 hi; omega)
        obtain ⟨B, hB⟩ := ih (A.set c ((L.norm w)⁻¹ • w)) (by simpa using hA) (fun x hx => hl x (by simp [hx]))
        refine ⟨B, ?_⟩
        rw [List.foldlM_cons]
        refine bind_ok (bind_ok hg (bind_ok hw ?_)) hB
        unfold pySet
        rw [if_pos (by omega)]
    obtain ⟨B, hB⟩ := hall (List.range' 1 (V.length - 1)) ((List.replicate V.length (0 : Fin d → K)).set 0 ((L.norm V[0])⁻¹ • V[0]))
      (by simp) (by
        intro c hc
        rw [List.mem_range'_1] at hc
        omega)
    refine bind_ok hB ?_
    rw [List.foldlM_cons, pyGet_out (le_refl _)]
    rfl

end

/-- A square array: `(1, 1)`, `(0, 1)`. -/
example : ∃ Q, gramSchmidt realLib [(![1, 1] : Fin 2 → ℝ), ![0, 1]] = .ok Q ∧ Q.length = 2 ∧ Ortho Q := by
  obtain ⟨Q, h1, h2, h3, _⟩ := C71_gram_schmidt_partial realLib realLib_sqrt [(![1, 1] : Fin 2 → ℝ), ![0, 1]] rfl (by omega) (by
    intro k hk ⟨y, hy⟩
    have hk : k < 2 := hk
    interval_cases k
    · have : (1 : ℝ) = 0 := (congrFun hy 0).trans (by
        have : IsEmpty (Fin (List.take 0 [(![1, 1] : Fin 2 → ℝ), ![0, 1]]).length) := Fin.isEmpty'
        rw [Finset.univ_eq_empty, Finset.sum_empty]; rfl)
      norm_num at this
    · have h0 := congrFun hy 0
      have h1 := congrFun hy 1
      simp at h0 h1
      linarith)
  exact ⟨Q, h1, h2, h3⟩

/-- Two columns of length 3. -/
example : gramSchmidt realLib [(![1, 0, 0] : Fin 3 → ℝ), ![0, 1, 0]] = .error .indexError :=
  C71_rectangular_fails realLib _ (by simp)

end TJ
