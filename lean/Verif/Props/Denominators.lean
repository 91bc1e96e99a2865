/-
C126: the denominators of the corrections in `modified_davidson_algorithm`.
-/
import Verif.Model.StrictDavidson
import Verif.Props.RitzValues
import Verif.Props.MainRun
import Verif.Lemmas.FarConfs
import Verif.Lemmas.HamLin
import Verif.Lemmas.Corrections

namespace TJ

open Matrix Finset

section
variable {K : Type} [Field K] [LinearOrder K] {d : Nat}

/-! ### One turn of the loop -/

theorem preconditionStrict_ok {A : Matrix (Fin d) (Fin d) K} {lam : K} (h : ∀ i, A i i ≠ lam) (r : Fin d → K) :
    preconditionStrict A lam r = .ok (precondition A lam r) := by
  unfold preconditionStrict
  rw [if_neg]
  · rfl
  · rintro ⟨i, hi⟩
    exact h i (sub_eq_zero.1 hi)

theorem preconditionStrict_zero {A : Matrix (Fin d) (Fin d) K} {lam : K} {i : Fin d} (h : A i i = lam) (r : Fin d → K) :
    preconditionStrict A lam r = .error .zeroDivisionError := by
  unfold preconditionStrict
  rw [if_pos ⟨i, by rw [h, sub_self]⟩]

theorem bind_error' {α β : Type} {x : Py α} {f : α → Py β} {e : PyErr} (hx : x = .error e) : (x >>= f) = .error e := by
  rw [hx]
  rfl

/-- The turn is the same if no denominator is zero. -/
theorem strictLoop_same {L : LinAlg K} {A : Matrix (Fin d) (Fin d) K} {nb : Nat} {tol : K} {dimMax : Nat} (P : List (Fin d → K) → Prop)
    (hP : ∀ V vals us rs, P V → ritz L A V nb = .ok (vals, us, rs) → ∀ lam ∈ vals, ∀ i, A i i ≠ lam)
    (hnext : ∀ V W, P V → NextSpace L A nb tol dimMax V W → P W) :
    ∀ stp V last trace, P V → strictLoop L A nb tol dimMax stp V last trace = davidsonLoop L A nb tol dimMax stp V last trace := by
  intro stp
  induction stp with
  | zero =>
    intro V last trace _
    cases last <;> rfl
  | succ stp ih =>
    intro V last trace hV
    rcases hr : ritz L A V nb with e | ⟨vals, us, rs⟩
    · unfold strictLoop davidsonLoop
      rw [hr]
      rfl
    · obtain ⟨h1, h2, h3, h4, _⟩ := ritz_ok hr
      have hcorr : (List.range nb).mapM (fun ind => (do
          let lam ← pyGet vals ind
          let res ← pyGet rs ind
          preconditionStrict A lam res : Py (Fin d → K))) =
          .ok ((List.range nb).map (fun ind => precondition A (vals.getD ind 0) (rs.getD ind 0))) := by
        refine mapM_ok ?_
        intro ind hi
        have hi := List.mem_range.1 hi
        refine bind_ok (pyGet_get (by omega)) (bind_ok (pyGet_get (by omega)) ?_)
        rw [preconditionStrict_ok (hP V vals us rs hV hr _ (List.getElem_mem _))]
        rw [List.getD_eq_getElem?_getD, List.getD_eq_getElem?_getD, List.getElem?_eq_getElem (by omega), List.getElem?_eq_getElem (by omega)]
        rfl
      have hcorr' : (List.range nb).mapM (fun ind => (do
          let lam ← pyGet vals ind
          let res ← pyGet rs ind
          return precondition A lam res : Py (Fin d → K))) =
          .ok ((List.range nb).map (fun ind => precondition A (vals.getD ind 0) (rs.getD ind 0))) := by
        refine mapM_ok ?_
        intro ind hi
        have hi := List.mem_range.1 hi
        refine bind_ok (pyGet_get (by omega)) (bind_ok (pyGet_get (by omega)) ?_)
        rw [List.getD_eq_getElem?_getD, List.getD_eq_getElem?_getD, List.getElem?_eq_getElem (by omega), List.getElem?_eq_getElem (by omega)]
        rfl
      by_cases hc : rs.all (fun res => decide (L.norm res ≤ tol)) = true
      · unfold strictLoop davidsonLoop
        rw [hr]
        show (if rs.all (fun res => decide (L.norm res ≤ tol)) = true then _ else _) = (if rs.all (fun res => decide (L.norm res ≤ tol)) = true then _ else _)
        rw [if_pos hc, if_pos hc]
      · have hN : NextSpace L A nb tol dimMax V (if (dimMax : Int) - nb < d
            then L.qr d (us ++ (List.range nb).map (fun ind => precondition A (vals.getD ind 0) (rs.getD ind 0)))
            else L.qr d (V ++ (List.range nb).map (fun ind => precondition A (vals.getD ind 0) (rs.getD ind 0)))) := by
          refine ⟨vals, us, rs, _, hr, ?_, ⟨by simp, fun k hk => by simp [List.getD_eq_getElem?_getD, hk]⟩, rfl⟩
          simpa using hc
        unfold strictLoop davidsonLoop
        rw [hr]
        show (if rs.all (fun res => decide (L.norm res ≤ tol)) = true then _ else _) = (if rs.all (fun res => decide (L.norm res ≤ tol)) = true then _ else _)
        rw [if_neg hc, if_neg hc, hcorr, hcorr']
        exact ih _ _ _ (hnext V _ hV hN)

/-- A turn with a zero denominator. -/
theorem strictLoop_zero {L : LinAlg K} {A : Matrix (Fin d) (Fin d) K} {nb : Nat} {tol : K} {dimMax stp : Nat} {V : List (Fin d → K)}
    {last : Option (List K × List (Fin d → K))} {trace : List (List (Fin d → K))} {vals : List K} {us rs : List (Fin d → K)}
    (hr : ritz L A V nb = .ok (vals, us, rs)) (hc : ∃ r ∈ rs, ¬ L.norm r ≤ tol) {lam : K} (hl : lam ∈ vals) {i : Fin d} (hi : A i i = lam) :
    strictLoop L A nb tol dimMax (stp + 1) V last trace = .error .zeroDivisionError := by
  obtain ⟨h1, h2, h3, h4, _⟩ := ritz_ok hr
  have hc : ¬ rs.all (fun res => decide (L.norm res ≤ tol)) = true := by simpa using hc
  unfold strictLoop
  rw [hr]
  show (if rs.all (fun res => decide (L.norm res ≤ tol)) = true then _ else _) = _
  rw [if_neg hc]
  refine bind_error' (mapM_error ?_ ?_)
  · intro ind hind
    have hind := List.mem_range.1 hind
    by_cases hz : ∀ j, A j j ≠ vals[ind]'(by omega)
    · exact .inl ⟨_, bind_ok (pyGet_get (by dsimp only; omega)) (bind_ok (pyGet_get (by dsimp only; omega)) (preconditionStrict_ok hz _))⟩
    · push Not at hz
      obtain ⟨j, hj⟩ := hz
      exact .inr (bind_ok (pyGet_get (by dsimp only; omega)) (bind_ok (pyGet_get (by dsimp only; omega)) (preconditionStrict_zero hj _)))
  · obtain ⟨ind, hind, rfl⟩ := List.getElem_of_mem hl
    exact ⟨ind, List.mem_range.2 (by omega), bind_ok (pyGet_get (by dsimp only; omega)) (bind_ok (pyGet_get (by dsimp only; omega)) (preconditionStrict_zero hi _))⟩

/-- What the strict version returns, the other one returns too. -/
theorem strictLoop_le {L : LinAlg K} {A : Matrix (Fin d) (Fin d) K} {nb : Nat} {tol : K} {dimMax : Nat} : ∀ stp V last trace r,
    strictLoop L A nb tol dimMax stp V last trace = .ok r → davidsonLoop L A nb tol dimMax stp V last trace = .ok r := by
  intro stp
  induction stp with
  | zero =>
    intro V last trace r h
    cases last <;> exact h
  | succ stp ih =>
    intro V last trace r h
    rcases hr : ritz L A V nb with e | ⟨vals, us, rs⟩
    · unfold strictLoop at h
      rw [hr] at h
      cases h
    · obtain ⟨h1, h2, h3, h4, _⟩ := ritz_ok hr
      by_cases hc : rs.all (fun res => decide (L.norm res ≤ tol)) = true
      · unfold strictLoop at h
        unfold davidsonLoop
        rw [hr] at h ⊢
        have h : (if rs.all (fun res => decide (L.norm res ≤ tol)) = true then _ else _) = _ := h
        show (if rs.all (fun res => decide (L.norm res ≤ tol)) = true then _ else _) = _
        rw [if_pos hc] at h ⊢
        exact h
      · by_cases hz : ∃ lam ∈ vals, ∃ i, A i i = lam
        · obtain ⟨lam, hl, i, hi⟩ := hz
          rw [strictLoop_zero hr (by simpa using hc) hl hi] at h
          cases h
        · push Not at hz
          have hcorr : ∀ (f : K → (Fin d → K) → Py (Fin d → K)), (∀ lam ∈ vals, ∀ r, f lam r = .ok (precondition A lam r)) →
              (List.range nb).mapM (fun ind => (do
              let lam ← pyGet vals ind
              let res ← pyGet rs ind
              f lam res : Py (Fin d → K))) =
              .ok ((List.range nb).map (fun ind => precondition A (vals.getD ind 0) (rs.getD ind 0))) := by
            intro f hf
            refine mapM_ok ?_
            intro ind hi
            have hi := List.mem_range.1 hi
            refine bind_ok (pyGet_get (by omega)) (bind_ok (pyGet_get (by omega)) ?_)
            rw [hf _ (List.getElem_mem _)]
            rw [List.getD_eq_getElem?_getD, List.getD_eq_getElem?_getD, List.getElem?_eq_getElem (by omega), List.getElem?_eq_getElem (by omega)]
            rfl
          unfold strictLoop at h
          unfold davidsonLoop
          rw [hr] at h ⊢
          have h : (if rs.all (fun res => decide (L.norm res ≤ tol)) = true then _ else _) = _ := h
          show (if rs.all (fun res => decide (L.norm res ≤ tol)) = true then _ else _) = _
          rw [if_neg hc, hcorr _ (fun lam hl r => preconditionStrict_ok (hz lam hl) r)] at h
          rw [if_neg hc, hcorr (fun lam r => pure (precondition A lam r)) (fun lam hl r => rfl)]
          exact ih _ _ _ _ h

/-! ### Spans and determinants -/

/-- Orthonormal lists of the same length: if one spans the other, the other spans it. -/
theorem span_back {V W : List (Fin d → K)} (hV : Ortho V) (hW : Ortho W) (hl : W.length = V.length) (h : ∀ v ∈ V, InSpan W v) :
    ∀ w ∈ W, InSpan V w := by
  choose y hy using fun i : Fin V.length => h (V.get i) (List.get_mem _ _)
  let C : Matrix (Fin V.length) (Fin V.length) K := fun i j => y i (Fin.cast hl.symm j)
  have hC : C * Cᵀ = 1 := by
    ext i j
    have := hV i j
    rw [hy i, hy j] at this
    have e : combine W (y i) ⬝ᵥ combine W (y j) = if i = j then 1 else 0 := this
    rw [combine_dot hW] at e
    rw [Matrix.mul_apply, Matrix.one_apply, ← e]
    exact (Fintype.sum_equiv (finCongr hl) _ _ (fun x => rfl)).symm
  have hC' := mul_eq_one_comm.1 hC
  intro w hw
  obtain ⟨k, hk, rfl⟩ := List.getElem_of_mem hw
  refine ⟨fun i => C i ⟨k, by omega⟩, ?_⟩
  rw [sum_congr rfl (fun i _ => by rw [hy i])]
  simp only [smul_sum, smul_smul]
  rw [sum_comm]
  have e : ∀ j : Fin W.length, ∑ i, (C i ⟨k, by omega⟩ * y i j) = if j = ⟨k, hk⟩ then 1 else 0 := by
    intro j
    have := congrFun (congrFun hC' ⟨k, by omega⟩) (Fin.cast hl j)
    rw [Matrix.mul_apply, Matrix.one_apply] at this
    simp only [Matrix.transpose_apply] at this
    rw [show (∑ i, C i ⟨k, by omega⟩ * y i j) = ∑ x, C x ⟨k, by omega⟩ * C x (Fin.cast hl j) from rfl, this]
    simp only [Fin.ext_iff, Fin.val_cast, eq_comm]
  simp only [← sum_smul, e, ite_smul, one_smul, zero_smul]
  simp

/-- The vectors of the basis at the given positions. -/
def unitVectors (ks : List (Fin d)) : List (Fin d → K) := ks.map (fun k => Pi.single k 1)

theorem unitVectors_length (ks : List (Fin d)) : (unitVectors ks : List (Fin d → K)).length = ks.length := List.length_map _

theorem unitVectors_get (ks : List (Fin d)) (i : Fin (unitVectors ks : List (Fin d → K)).length) :
    (unitVectors ks : List (Fin d → K)).get i = Pi.single (ks[(i : Nat)]'(lt_of_lt_of_eq i.2 (unitVectors_length ks))) 1 := by
  rw [List.get_eq_getElem]
  exact List.getElem_map _

theorem unitVectors_ortho {ks : List (Fin d)} (h : ks.Nodup) : Ortho (unitVectors ks : List (Fin d → K)) := by
  intro i j
  rw [unitVectors_get, unitVectors_get, single_dotProduct, one_mul, Pi.single_apply]
  refine if_congr ?_ rfl rfl
  rw [h.getElem_inj_iff, Fin.ext_iff]

theorem unitVectors_support {ks : List (Fin d)} {y : Fin d → K} (h : InSpan (unitVectors ks) y) {l : Fin d} (hl : l ∉ ks) : y l = 0 := by
  obtain ⟨z, rfl⟩ := h
  rw [Finset.sum_apply]
  refine sum_eq_zero fun i _ => ?_
  rw [Pi.smul_apply, smul_eq_mul, unitVectors_get, Pi.single_apply, if_neg, mul_zero]
  rintro rfl
  exact hl (List.getElem_mem _)

/-- The Ritz vectors are in the search space and the residues are orthogonal to it. -/
theorem ritz_galerkin {L : LinAlg K} (he : L.ExactEigh) {A : Matrix (Fin d) (Fin d) K} (hA : A.IsSymm) {V : List (Fin d → K)}
    (hV : Ortho V) {nb : Nat} {vals : List K} {us rs : List (Fin d → K)} (h : ritz L A V nb = .ok (vals, us, rs)) :
    ∀ k (h1 : k < vals.length) (h2 : k < us.length), InSpan V us[k] ∧ ∀ v, InSpan V v → v ⬝ᵥ (A *ᵥ us[k]) = vals[k] * (v ⬝ᵥ us[k]) := by
  obtain ⟨idx, _, _, _, h4⟩ := ritz_spec L A V nb (ritz_ok h).1
  obtain ⟨e1, e2⟩ := he V.length (rayleigh A V) (rayleigh_symm hA V)
  rw [h4] at h
  have h := Except.ok.inj h
  simp only [Prod.mk.injEq] at h
  obtain ⟨rfl, rfl, rfl⟩ := h
  intro k _ _
  simp only [List.getElem_map]
  refine ⟨⟨_, rfl⟩, ?_⟩
  rintro v ⟨y, rfl⟩
  show combine V y ⬝ᵥ _ = _ * (combine V y ⬝ᵥ _)
  rw [combine_rayleigh, combine_dot hV, e1, dotProduct_smul, smul_eq_mul]

/-- In the span of basis vectors that the matrix does not connect, the Ritz values are diagonal elements. -/
theorem ritz_units {L : LinAlg K} (he : L.ExactEigh) {A : Matrix (Fin d) (Fin d) K} (hA : A.IsSymm) {ks : List (Fin d)}
    (h0 : ∀ k ∈ ks, ∀ l ∈ ks, k ≠ l → A k l = 0) {V : List (Fin d → K)} (hV : Ortho V) (hin : ∀ v ∈ V, InSpan (unitVectors ks) v)
    (hback : ∀ v ∈ (unitVectors ks : List (Fin d → K)), InSpan V v) {nb : Nat} {vals : List K} {us rs : List (Fin d → K)}
    (h : ritz L A V nb = .ok (vals, us, rs)) : ∀ k (h1 : k < vals.length) (h2 : k < us.length), (∀ l, l ∉ ks → us[k] l = 0) ∧
      (∀ l ∈ ks, A l l * us[k] l = vals[k] * us[k] l) ∧ ∃ l ∈ ks, A l l = vals[k] := by
  intro k h1 h2
  obtain ⟨g1, g2⟩ := ritz_galerkin he hA hV h k h1 h2
  have hs : ∀ l, l ∉ ks → us[k] l = 0 := fun l hl => unitVectors_support (g1.mono hin) hl
  have hd : ∀ l ∈ ks, A l l * us[k] l = vals[k] * us[k] l := by
    intro l hl
    have := g2 (Pi.single l 1) (hback _ (List.mem_map.2 ⟨l, hl, rfl⟩))
    rw [single_dotProduct, single_dotProduct, one_mul, one_mul] at this
    rw [← this]
    refine (sum_eq_single (f := fun j => A l j * us[k] j) l (fun j _ hj => ?_) (fun h => absurd (mem_univ _) h)).symm
    show A l j * us[k] j = 0
    by_cases hjk : j ∈ ks
    · rw [h0 l hl j hjk (Ne.symm hj), zero_mul]
    · rw [hs j hjk, mul_zero]
  refine ⟨hs, hd, ?_⟩
  by_contra hc
  push Not at hc
  have hz : us[k] = 0 := by
    ext l
    by_cases hl : l ∈ ks
    · have := hd l hl
      rw [← sub_eq_zero, ← sub_mul] at this
      rcases mul_eq_zero.1 this with h | h
      · exact absurd (sub_eq_zero.1 h) (hc l hl)
      · exact h
    · exact hs l hl
  have hu1 : us[k] ⬝ᵥ us[k] = 1 := by simpa using (ritz_exact he hA hV h).1 ⟨k, h2⟩ ⟨k, h2⟩
  rw [hz, zero_dotProduct] at hu1
  exact zero_ne_one hu1

/-- C126. If no denominator vanishes the run is the one of the properties C50 to C100. -/
theorem C126_agree (L : LinAlg K) (A : Matrix (Fin d) (Fin d) K) (nbVal : Nat) (guess : Option (List (Fin d → K))) (stp : Nat) (tol : K)
    (dimMax : Nat) (r : DavidsonResult K d) (h : strictDavidson L A nbVal guess stp tol dimMax = .ok r) :
    modifiedDavidson L A nbVal guess stp tol dimMax = .ok r := by
  unfold strictDavidson at h
  unfold modifiedDavidson
  exact strictLoop_le _ _ _ _ _ h

/-- A computation whose results are results of another one. -/
def Refines {α : Type} (x y : Py α) : Prop := ∀ a, x = .ok a → y = .ok a

theorem refines_refl {α : Type} (x : Py α) : Refines x x := fun _ h => h

theorem refines_bind {α β : Type} {x y : Py α} {f g : α → Py β} (h : Refines x y) (h' : ∀ a, Refines (f a) (g a)) : Refines (x >>= f) (y >>= g) := by
  intro b hb
  obtain ⟨a, h1, h2⟩ := bind_eq_ok.1 hb
  exact bind_eq_ok.2 ⟨a, h a h1, h' a b h2⟩

theorem refines_mapM {α β : Type} {f g : α → Py β} (h : ∀ a, Refines (f a) (g a)) : ∀ l : List α, Refines (l.mapM f) (l.mapM g)
  | [] => refines_refl _
  | a :: l => by
    rw [List.mapM_cons, List.mapM_cons]
    exact refines_bind (h a) fun _ => refines_bind (refines_mapM h l) fun _ => refines_refl _

theorem refines_ite {α : Type} {p : Prop} [Decidable p] {x y x' y' : Py α} (h1 : Refines x y) (h2 : Refines x' y') :
    Refines (if p then x else x') (if p then y else y') := by
  split_ifs
  · exact h1
  · exact h2

theorem refines_precondition (A : Matrix (Fin d) (Fin d) K) (lam : K) (r : Fin d → K) :
    Refines (preconditionStrict A lam r) (pure (precondition A lam r)) := by
  intro a h
  by_cases hz : ∃ i, A i i = lam
  · obtain ⟨i, hi⟩ := hz
    rw [preconditionStrict_zero hi] at h
    cases h
  · push Not at hz
    rw [preconditionStrict_ok hz] at h
    exact h

/-- C126. The same for the deflating variant. -/
theorem C126_agree_opt (L : LinAlg K) (A : Matrix (Fin d) (Fin d) K) (nbVal initBlockSize stp : Nat) (tol droptol eta : K) (dimMax : Nat)
    (r : OptState K d) (h : strictDavidsonOpt L A nbVal initBlockSize stp tol droptol eta dimMax = .ok r) :
    modifiedDavidsonOpt L A nbVal initBlockSize stp tol droptol eta dimMax = .ok r := by
  have step : ∀ nu0 dm s, Refines (optStepStrict L A nbVal nu0 tol droptol eta dm s) (optStep L A nbVal nu0 tol droptol eta dm s) := by
    intro nu0 dm s
    unfold optStepStrict optStep
    refine refines_bind (refines_refl _) fun r => refines_bind (refines_refl _) fun st => refines_ite (refines_refl _) ?_
    refine refines_bind (refines_mapM (fun ind => refines_ite ?_ (refines_refl _)) _) fun _ => refines_refl _
    exact refines_bind (refines_refl _) fun lam => refines_bind (refines_refl _) fun res => refines_precondition A lam res
  have loop : ∀ nu0 dm stp s, Refines (optLoopStrict L A nbVal nu0 tol droptol eta dm stp s) (optLoop L A nbVal nu0 tol droptol eta dm stp s) := by
    intro nu0 dm stp
    induction stp with
    | zero => exact fun s => refines_refl _
    | succ stp ih =>
      intro s
      unfold optLoopStrict optLoop
      exact refines_bind (step nu0 dm s) fun r => refines_ite (refines_refl _) (ih _)
  exact loop _ _ _ _ r h

/-- C126. The same for the single-vector variant. -/
theorem C126_agree_single (L : LinAlg K) (A : Matrix (Fin d) (Fin d) K) (stp : Nat) (tol : K) (round : K → K) (fuel : Nat)
    (r : K × (Fin d → K)) (h : strictDavidsonAlgorithm L A stp tol round fuel = .ok r) :
    davidsonAlgorithm L A stp tol round fuel = .ok r := by
  revert r
  show Refines _ _
  unfold strictDavidsonAlgorithm davidsonAlgorithm
  refine refines_bind (refines_refl _) fun p => refines_ite (refines_refl _) ?_
  have := refines_bind (refines_precondition A p.1 p.2.2) (fun t => refines_refl (outerLoop L A tol round stp fuel (L.qr d (L.rand d 1 ++ [t])) p))
  exact this

variable [IsStrictOrderedRing K]

/-- C126, partial. If the values of the first search space are below all diagonal elements, no denominator vanishes in any iteration. Missing: starting
values above a diagonal element, where a later value may hit it; for determinants as first vectors the claim is false (`C126_determinants_fail`). -/
theorem C126_below_partial (L : LinAlg K) (he : L.ExactEigh) (hq : L.ExactQr) (A : Matrix (Fin d) (Fin d) K) (hA : A.IsSymm) (nbVal : Nat)
    (guess : List (Fin d → K)) (stp : Nat) (tol : K) (dimMax : Nat) (ho : Ortho guess) (hlen : guess.length ≤ d)
    (hlow : ∀ y : Fin d → K, InSpan guess y → y ≠ 0 → ∀ i, y ⬝ᵥ (A *ᵥ y) < A i i * (y ⬝ᵥ y)) :
    strictDavidson L A nbVal (some guess) stp tol dimMax = modifiedDavidson L A nbVal (some guess) stp tol dimMax := by
  unfold strictDavidson modifiedDavidson
  dsimp only [Option.getD_some]
  generalize (if dimMax = 0 then d else dimMax) = dm
  generalize min nbVal dm = nb
  refine strictLoop_same (fun V => Ortho V ∧ ∀ vals us rs, ritz L A V nb = .ok (vals, us, rs) → ∀ lam ∈ vals, ∀ i, lam < A i i) ?_ ?_ _ _ _ _ ?_
  · rintro V vals us rs ⟨_, h2⟩ hr lam hl i e
    exact absurd (h2 vals us rs hr lam hl i) (by rw [e]; exact lt_irrefl _)
  · rintro V W ⟨h1, h2⟩ hN
    refine ⟨hN.ortho hq, fun vals us rs hr lam hl i => ?_⟩
    obtain ⟨k, hk, rfl⟩ := List.getElem_of_mem hl
    obtain ⟨vals0, us0, rs0, _, h0, _⟩ := id hN
    have hk0 : k < vals0.length := by rw [(ritz_ok h0).2.1, ← (ritz_ok hr).2.1]; exact hk
    exact lt_of_le_of_lt (hN.kth_le he hq hA h1 h0 hr k hk0 hk) (h2 vals0 us0 rs0 h0 _ (List.getElem_mem hk0) i)
  · have key : ∀ V : List (Fin d → K), Ortho V → (∀ v ∈ V, InSpan guess v) → Ortho V ∧ ∀ vals us rs, ritz L A V nb = .ok (vals, us, rs) → ∀ lam ∈ vals, ∀ i, lam < A i i := by
      intro V hV hin
      refine ⟨hV, fun vals us rs hr lam hl i => ?_⟩
      obtain ⟨k, hk, rfl⟩ := List.getElem_of_mem hl
      obtain ⟨o1, o2, _⟩ := ritz_exact he hA hV hr
      obtain ⟨r1, r2, r3, _, _⟩ := ritz_ok hr
      have hku : k < us.length := by omega
      have hu1 : us[k] ⬝ᵥ us[k] = 1 := by simpa using o1 ⟨k, hku⟩ ⟨k, hku⟩
      have := hlow us[k] ?_ ?_ i
      · rwa [o2 k hk hku, hu1, mul_one] at this
      · obtain ⟨idx, _, _, _, h4⟩ := ritz_spec L A V nb r1
        rw [h4] at hr
        have hr := Except.ok.inj hr
        simp only [Prod.mk.injEq] at hr
        obtain ⟨-, rfl, -⟩ := hr
        simp only [List.getElem_map]
        unfold combine
        choose z hz using fun i => hin (V.get i) (List.get_mem _ _)
        generalize (L.eigh V.length (rayleigh A V)).2 _ = y
        refine ⟨∑ i, y i • z i, ?_⟩
        rw [sum_congr rfl (fun i _ => by rw [hz i])]
        simp only [smul_sum, Finset.sum_apply, Pi.smul_apply, sum_smul, smul_smul, smul_eq_mul]
        rw [sum_comm]
      · intro e
        rw [e] at hu1
        simp at hu1
    by_cases h1 : 1 < nb
    · rw [if_pos h1]
      obtain ⟨q1, q2, q3⟩ := hq d guess
      refine key _ q2 (span_back ho q2 (by rw [q1]; omega) q3)
    · rw [if_neg h1]
      refine key _ ho fun v hv => ?_
      obtain ⟨k, hk, rfl⟩ := List.getElem_of_mem hv
      refine ⟨fun i => if i = ⟨k, hk⟩ then 1 else 0, ?_⟩
      simp [ite_smul]

omit [IsStrictOrderedRing K] in
/-- The first search space of a run that starts from basis vectors. -/
theorem units_space {L : LinAlg K} (hq : L.ExactQr) {ks : List (Fin d)} (hnd : ks.Nodup) (nb : Nat) {V : List (Fin d → K)}
    (hV : V = if 1 < nb then L.qr d (unitVectors ks) else unitVectors ks) :
    V.length = ks.length ∧ Ortho V ∧ (∀ v ∈ V, InSpan (unitVectors ks) v) ∧ ∀ v ∈ (unitVectors ks : List (Fin d → K)), InSpan V v := by
  subst hV
  have ho := unitVectors_ortho (K := K) hnd
  have hd : ks.length ≤ d := by simpa using hnd.length_le_card
  split_ifs
  · obtain ⟨q1, q2, q3⟩ := hq d (unitVectors ks)
    have hl : (L.qr d (unitVectors ks)).length = (unitVectors ks : List (Fin d → K)).length := by
      rw [q1, unitVectors_length]
      omega
    exact ⟨hl.trans (unitVectors_length ks), q2, span_back ho q2 hl q3, q3⟩
  · exact ⟨unitVectors_length ks, ho, fun v hv => inSpan_get hv, fun v hv => inSpan_get hv⟩

omit [IsStrictOrderedRing K] in
/-- C126. Starting from basis vectors that the matrix does not connect, there is no second iteration: the run stops after the first one,
or a denominator is zero. -/
theorem C126_no_second_iteration (L : LinAlg K) (he : L.ExactEigh) (hq : L.ExactQr) (A : Matrix (Fin d) (Fin d) K) (hA : A.IsSymm)
    (ks : List (Fin d)) (hnd : ks.Nodup) (h0 : ∀ k ∈ ks, ∀ l ∈ ks, k ≠ l → A k l = 0) (nbVal : Nat) (h1 : 1 ≤ nbVal) (h2 : nbVal ≤ ks.length)
    (stp : Nat) (tol : K) (dimMax : Nat) :
    strictDavidson L A nbVal (some (unitVectors ks)) (stp + 1) tol dimMax = .error .zeroDivisionError ∨
      ∃ r, strictDavidson L A nbVal (some (unitVectors ks)) (stp + 1) tol dimMax = .ok r ∧ r.trace.length = 1 ∧ r.converged = true ∧
        ∀ k (e1 : k < r.eigvals.length) (e2 : k < r.eigvects.length), L.norm (r.eigvals[k] • r.eigvects[k] - A *ᵥ r.eigvects[k]) ≤ tol := by
  have hd : ks.length ≤ d := by simpa using hnd.length_le_card
  unfold strictDavidson
  dsimp only [Option.getD_some]
  have hdm : 1 ≤ if dimMax = 0 then d else dimMax := by split_ifs <;> omega
  generalize (if dimMax = 0 then d else dimMax) = dm at hdm ⊢
  have hnb : 1 ≤ min nbVal dm ∧ min nbVal dm ≤ ks.length := by omega
  generalize min nbVal dm = nb at hnb ⊢
  obtain ⟨s1, s2, s3, s4⟩ := units_space hq hnd nb rfl
  generalize (if 1 < nb then L.qr d (unitVectors ks) else unitVectors ks) = V at s1 s2 s3 s4 ⊢
  obtain ⟨idx, _, _, _, hr⟩ := ritz_spec L A V nb (by omega)
  obtain ⟨vals, us, rs, hr⟩ : ∃ vals us rs, ritz L A V nb = .ok (vals, us, rs) := ⟨_, _, _, hr⟩
  obtain ⟨r1, r2, r3, r4, r5⟩ := ritz_ok hr
  by_cases hc : ∃ r ∈ rs, ¬ L.norm r ≤ tol
  · left
    obtain ⟨l, _, hl⟩ := (ritz_units he hA h0 s2 s3 s4 hr 0 (by omega) (by omega)).2.2
    exact strictLoop_zero hr hc (List.getElem_mem _) hl
  · right
    have hc' : rs.all (fun res => decide (L.norm res ≤ tol)) = true := by simpa using hc
    refine ⟨⟨vals, us, [V], true⟩, ?_, rfl, rfl, ?_⟩
    · unfold strictLoop
      rw [hr]
      show (if rs.all (fun res => decide (L.norm res ≤ tol)) = true then _ else _) = _
      rw [if_pos hc']
      rfl
    · intro k e1 e2
      push Not at hc
      have e1 : k < vals.length := e1
      have e2 : k < us.length := e2
      show L.norm (vals[k] • us[k] - A *ᵥ us[k]) ≤ tol
      rw [← r5 k e1 e2 (by omega)]
      exact hc _ (List.getElem_mem _)

/-- C126. Each of these basis vectors has a connection of its own that exceeds the tolerance: a denominator is zero in the first iteration. -/
theorem C126_vectors_fail (L : LinAlg K) (he : L.ExactEigh) (hq : L.ExactQr) (hs : L.ExactSqrt) (A : Matrix (Fin d) (Fin d) K) (hA : A.IsSymm)
    (ks : List (Fin d)) (hnd : ks.Nodup) (h0 : ∀ k ∈ ks, ∀ l ∈ ks, k ≠ l → A k l = 0) (nbVal : Nat) (h1 : 1 ≤ nbVal) (h2 : nbVal ≤ ks.length)
    (stp : Nat) (tol : K) (dimMax : Nat)
    (hout : ∀ k ∈ ks, ∃ l, l ∉ ks ∧ (∀ k' ∈ ks, k' ≠ k → A l k' = 0) ∧ (ks.length : K) * tol ^ 2 < A l k ^ 2) :
    strictDavidson L A nbVal (some (unitVectors ks)) (stp + 1) tol dimMax = .error .zeroDivisionError := by
  rcases C126_no_second_iteration L he hq A hA ks hnd h0 nbVal h1 h2 stp tol dimMax with h | ⟨r, hr, _, _, _⟩
  · exact h
  exfalso
  have hd : ks.length ≤ d := by simpa using hnd.length_le_card
  unfold strictDavidson at hr
  dsimp only [Option.getD_some] at hr
  have hdm : 1 ≤ if dimMax = 0 then d else dimMax := by split_ifs <;> omega
  generalize (if dimMax = 0 then d else dimMax) = dm at hdm hr
  have hnb : 1 ≤ min nbVal dm ∧ min nbVal dm ≤ ks.length := by omega
  generalize min nbVal dm = nb at hnb hr
  obtain ⟨s1, s2, s3, s4⟩ := units_space hq hnd nb rfl
  generalize (if 1 < nb then L.qr d (unitVectors ks) else unitVectors ks) = V at s1 s2 s3 s4 hr
  obtain ⟨idx, _, _, _, hz⟩ := ritz_spec L A V nb (by omega)
  obtain ⟨vals, us, rs, hz⟩ : ∃ vals us rs, ritz L A V nb = .ok (vals, us, rs) := ⟨_, _, _, hz⟩
  obtain ⟨r1, r2, r3, r4, r5⟩ := ritz_ok hz
  obtain ⟨u1, u2, l0, _, hl0⟩ := ritz_units he hA h0 s2 s3 s4 hz 0 (by omega) (by omega)
  have hc : ¬ ∃ r ∈ rs, ¬ L.norm r ≤ tol := by
    intro hc
    rw [strictLoop_zero hz hc (List.getElem_mem _) hl0] at hr
    cases hr
  push Not at hc
  have hres := hc rs[0] (List.getElem_mem (by omega))
  rw [r5 0 (by omega) (by omega) (by omega)] at hres
  have hunit : us[0] ⬝ᵥ us[0] = 1 := by simpa using (ritz_exact he hA s2 hz).1 ⟨0, by omega⟩ ⟨0, by omega⟩
  generalize us[0] = u at u1 u2 hres hunit
  generalize vals[0] = lam at u2 hres
  have hsum : ∑ l ∈ ks.toFinset, u l * u l = 1 := by
    rw [← hunit]
    refine sum_subset (subset_univ _) fun l _ hl => ?_
    rw [u1 l (by simpa using hl), zero_mul]
  have hcard : ks.toFinset.card = ks.length := List.toFinset_card_of_nodup hnd
  obtain ⟨k, hk, hbig⟩ : ∃ k ∈ ks, 1 ≤ (ks.length : K) * (u k * u k) := by
    by_contra hcon
    push Not at hcon
    have hne : ks.toFinset.Nonempty := by
      rw [← card_pos]
      omega
    have := sum_lt_sum_of_nonempty hne (f := fun l => (ks.length : K) * (u l * u l)) (g := fun _ => (1 : K))
      (fun l hl => hcon l (by simpa using hl))
    rw [← mul_sum, hsum, sum_const, hcard, nsmul_eq_mul] at this
    exact lt_irrefl _ this
  obtain ⟨l, hl, hl', hlt⟩ := hout k hk
  have hAu : (A *ᵥ u) l = A l k * u k := by
    refine sum_eq_single (f := fun j => A l j * u j) k (fun j _ hj => ?_) (fun h => absurd (mem_univ _) h)
    show A l j * u j = 0
    by_cases hjk : j ∈ ks
    · rw [hl' j hjk hj, zero_mul]
    · rw [u1 j hjk, mul_zero]
  set r := lam • u - A *ᵥ u with hrdef
  have hrl : r l = - (A l k * u k) := by
    rw [hrdef, Pi.sub_apply, Pi.smul_apply, u1 l hl, hAu]
    simp
  have hnn : 0 ≤ r ⬝ᵥ r := sum_nonneg fun i _ => mul_self_nonneg _
  obtain ⟨n1, n2⟩ := hs _ hnn
  have hrr : r ⬝ᵥ r ≤ tol ^ 2 := by
    rw [← n2]
    have : L.sqrt (r ⬝ᵥ r) ≤ tol := hres
    nlinarith
  have hle : r l * r l ≤ r ⬝ᵥ r := single_le_sum (f := fun i => r i * r i) (fun i _ => mul_self_nonneg _) (mem_univ l)
  have hfin : (A l k * u k) ^ 2 ≤ tol ^ 2 := by
    rw [hrl] at hle
    nlinarith
  have hlen : (0 : K) ≤ ks.length := Nat.cast_nonneg _
  have e1 := mul_le_mul_of_nonneg_left hfin hlen
  have e2 := mul_le_mul_of_nonneg_left hbig (sq_nonneg (A l k))
  nlinarith

/-! ### Guesses made of determinants -/

/-- C126. The guess is made of determinants of the basis, any two of which differ at four sites or more; from each one a hole can hop
such that the new occupation differs at four sites or more from the other ones. For all couplings and all selections of terms with the
hopping, a denominator is zero in the first iteration. -/
theorem C126_determinants_fail (E : Env) (L : LinAlg K) (he : L.ExactEigh) (hq : L.ExactQr) (hs : L.ExactSqrt) (c : Config) (nbh nbv nb : Nat)
    (hc : RectConf c nbh nbv nb) (hf : c.Full) (hn : c.nholes + c.nbeta ≤ c.nsites) (I : Interactions K) (B : BoolInteractions) (hB : B.bt = true)
    (r : List Nat) (v : Bool) (dets : List (List Nat)) (hb : constructBasis c = .ok dets) (H : SpMat K)
    (hH : buildHamiltonian E c I dets B r v = .ok H) (guesses : List (List Nat)) (hg : ∀ g ∈ guesses, g ∈ dets) (hnd : guesses.Nodup)
    (hfar : ∀ g ∈ guesses, ∀ g' ∈ guesses, g ≠ g' → 4 ≤ differing (conf c g) (conf c g'))
    (hhop : ∀ g ∈ guesses, ∃ a b, conf c g a = .hole ∧ conf c g b ≠ .hole ∧ Near (gridPos (nbh * nb) a) (gridPos (nbh * nb) b) ∧
      ∀ g' ∈ guesses, g' ≠ g → 4 ≤ differing (exch (conf c g) a b) (conf c g'))
    (nbVal : Nat) (h1 : 1 ≤ nbVal) (h2 : nbVal ≤ guesses.length) (tol : K) (ht : (guesses.length : K) * tol ^ 2 < I.t ^ 2) (stp dimMax : Nat) :
    ∃ a V, guessMatrix c guesses.length guesses = .ok a ∧ guessColumns H.dim a = .ok V ∧
      strictDavidson L H.toMatrix nbVal (some V) (stp + 1) tol dimMax = .error .zeroDivisionError := by
  obtain ⟨H', b1, hdim, _, hent'⟩ := buildHamiltonian_spec I (hc.tj E) hf hn hb B r v
  obtain rfl := Except.ok.inj (hH.symm.trans b1)
  have hent : ∀ i j (hi : i < dets.length) (hj : j < dets.length), H.entry i j = hamEl I (fun s => gridPos (nbh * nb) s) B (conf c dets[i]) (conf c dets[j]) :=
    fun i j hi hj => C31_matrix_elements E c nbh nbv nb hc hf hn I B r v dets hb H hH i j hi hj
  have hsym : H.toMatrix.IsSymm := by
    ext i j
    exact C32_symmetric E c nbh nbv nb hc hf hn I B r v dets hb H hH j i
  obtain ⟨a, a1, a2, a3, a4⟩ := C118_guess (K := K) c dets hb guesses.length guesses hg le_rfl
  have hdnd : dets.Nodup := by
    obtain ⟨l, e1, e2, _⟩ := C01_basis_enumerates c
    obtain rfl := Except.ok.inj (hb.symm.trans e1)
    exact e2
  -- the positions of the determinants
  have hidx : ∀ g : {g // g ∈ guesses}, ∃ k : Fin H.dim, ∃ hk : (k : Nat) < dets.length, dets[(k : Nat)] = g.1 := by
    rintro ⟨g, h⟩
    obtain ⟨k, hk, e⟩ := List.getElem_of_mem (hg g h)
    exact ⟨⟨k, by omega⟩, hk, e⟩
  choose pos hpos hpos' using hidx
  let ks : List (Fin H.dim) := guesses.attach.map pos
  have hlen : ks.length = guesses.length := by simp [ks]
  have hinj : Function.Injective pos := by
    intro x y e
    apply Subtype.ext
    rw [← hpos' x, ← hpos' y]
    simp only [e]
  have hknd : ks.Nodup := (List.nodup_attach.2 hnd).map hinj
  have hmem : ∀ k ∈ ks, ∃ g ∈ guesses, ∃ hk : (k : Nat) < dets.length, dets[(k : Nat)] = g := by
    intro k hk
    obtain ⟨g, _, rfl⟩ := List.mem_map.1 hk
    exact ⟨g.1, g.2, hpos g, hpos' g⟩
  have hhead : (a.headD []).length = guesses.length := by
    cases a with
    | nil =>
      have : 0 < dets.length := by
        obtain ⟨g, hgm⟩ : ∃ g, g ∈ guesses := ⟨guesses[0]'(by omega), List.getElem_mem _⟩
        exact List.length_pos_of_mem (hg g hgm)
      simp at a2
      omega
    | cons r _ => exact a3 r (by simp)
  have hcols : guessColumns H.dim a = .ok (unitVectors ks : List (Fin H.dim → K)) := by
    unfold guessColumns
    rw [if_pos (by omega), hhead]
    congr 1
    refine List.ext_getElem (by simp [unitVectors, hlen]) ?_
    intro k k1 k2
    have hk : k < guesses.length := by simpa using k1
    funext i
    have hi : (i : Nat) < dets.length := by have := i.2; omega
    rw [List.getElem_map, List.getElem_range, a4 i hi k hk, List.getElem?_eq_getElem hk]
    have e := unitVectors_get (K := K) ks ⟨k, k2⟩
    rw [List.get_eq_getElem] at e
    rw [show (unitVectors ks : List (Fin H.dim → K))[k] = _ from e, Pi.single_apply]
    refine if_congr ?_ rfl rfl
    have e3 : ks[k]'(by omega) = pos ⟨guesses[k], List.getElem_mem hk⟩ := by simp [ks]
    rw [Option.some.injEq, show ks[((⟨k, k2⟩ : Fin (unitVectors ks : List (Fin H.dim → K)).length) : Nat)]'(by simp only; omega) = _ from e3]
    constructor
    · intro h
      apply Fin.ext
      refine (hdnd.getElem_inj_iff (hi := hi) (hj := hpos _)).1 ?_
      exact h.symm.trans (hpos' ⟨guesses[k], List.getElem_mem hk⟩).symm
    · intro h
      refine (hpos' ⟨guesses[k], List.getElem_mem hk⟩).symm.trans ?_
      simp only [h]
  refine ⟨a, _, a1, hcols, ?_⟩
  have hkk : ∀ k ∈ ks, ∀ l ∈ ks, k ≠ l → ∀ (e1 : (k : Nat) < dets.length) (e2 : (l : Nat) < dets.length), dets[(k : Nat)] ≠ dets[(l : Nat)] := by
    intro k _ l _ hkl e1 e2 e
    exact hkl (Fin.ext ((hdnd.getElem_inj_iff).1 e))
  refine C126_vectors_fail L he hq hs H.toMatrix hsym ks hknd ?_ nbVal h1 (by omega) stp tol dimMax ?_
  · intro k hk l hl hkl
    obtain ⟨g, g1, g2, g3⟩ := hmem k hk
    obtain ⟨g', g1', g2', g3'⟩ := hmem l hl
    show H.entry k l = 0
    rw [hent k l g2 g2']
    refine hamEl_far I _ B (hfar _ (g3 ▸ g1) _ (g3' ▸ g1') ?_)
    exact hkk k hk l hl hkl g2 g2'
  · intro k hk
    obtain ⟨g, g1, g2, g3⟩ := hmem k hk
    subst g3
    obtain ⟨x, y, hx, hy, hxy, hfar'⟩ := hhop _ g1
    have hcan := (canonical_getElem hb k g2).1
    obtain ⟨l, hl, el⟩ := exists_conf (σ := exch (conf c dets[(k : Nat)]) x y) hb hn (by rw [count_exch]; exact count_conf_hole hn hcan)
      (by rw [count_exch]; exact count_conf_down hn hcan)
    have hval : H.entry l k = I.t := by
      rw [hent l k hl g2, hamEl_symm, el]
      exact hamEl_exch I _ B hB hx hy hxy
    have hother : ∀ k' ∈ ks, k' ≠ k → 4 ≤ differing (conf c dets[l]) (conf c (dets.getD (k' : Nat) [])) := by
      intro k' hk' hne
      obtain ⟨g', g1', g2', g3'⟩ := hmem k' hk'
      rw [el, List.getD_eq_getElem _ _ g2', g3']
      refine hfar' g' g1' ?_
      rw [← g3']
      exact hkk k' hk' k hk hne g2' g2
    refine ⟨⟨l, by omega⟩, ?_, ?_, ?_⟩
    · intro hmem'
      by_cases hlk : (⟨l, by omega⟩ : Fin H.dim) = k
      · have hlk : l = k := congrArg Fin.val hlk
        subst hlk
        have := congrFun el x
        rw [exch_left, hx] at this
        exact hy this.symm
      · have := hother _ hmem' hlk
        rw [List.getD_eq_getElem _ _ hl, differing_self] at this
        omega
    · intro k' hk' hne
      obtain ⟨g', g1', g2', g3'⟩ := hmem k' hk'
      show H.entry l k' = 0
      rw [hent l k' hl g2']
      have := hother k' hk' hne
      rw [List.getD_eq_getElem _ _ g2'] at this
      exact hamEl_far I _ B this
    · show _ < H.entry l k ^ 2
      rw [hval, hlen]
      exact ht

/-- C126. The two guesses of main.py, for the numbers of states given there (6 and 4) and all couplings with `6 tol² < t²`: main.py prepares
them and does not pass them on; passed on, they would end in a division by zero. -/
theorem C126_main_guesses_fail (E : Env) (L : LinAlg K) (he : L.ExactEigh) (hq : L.ExactQr) (hs : L.ExactSqrt) (I : Interactions K)
    (B : BoolInteractions) (hB : B.bt = true) (tol : K) (ht : 6 * tol ^ 2 < I.t ^ 2) (stp dimMax : Nat) :
    (∀ dets H, constructBasis (rectConf 2 2 2 4 6) = .ok dets → buildHamiltonian E (rectConf 2 2 2 4 6) I dets B [] true = .ok H →
      ∃ a V, guessMatrix (rectConf 2 2 2 4 6) 6 guesses16 = .ok a ∧ guessColumns H.dim a = .ok V ∧
        strictDavidson L H.toMatrix 6 (some V) (stp + 1) tol dimMax = .error .zeroDivisionError) ∧
    (∀ dets H, constructBasis (rectConf 2 1 3 2 8) = .ok dets → buildHamiltonian E (rectConf 2 1 3 2 8) I dets B [] true = .ok H →
      ∃ a V, guessMatrix (rectConf 2 1 3 2 8) 6 guesses18 = .ok a ∧ guessColumns H.dim a = .ok V ∧
        strictDavidson L H.toMatrix 4 (some V) (stp + 1) tol dimMax = .error .zeroDivisionError) := by
  constructor
  · intro dets H hb hH
    exact C126_determinants_fail E L he hq hs _ 2 2 2 (rectConf_ok _ _ _ _ _ (by decide) (by decide) (by decide)) (by unfold Config.Full; decide +kernel)
      (by decide +kernel) I B hB [] true dets hb H hH guesses16 (guess_in_basis _ (by decide +kernel) dets hb _ (by decide +kernel)) (by decide +kernel)
      (by decide +kernel) (by decide +kernel) 6 (by decide) (by decide) tol (by simpa [guesses16] using ht) stp dimMax
  · intro dets H hb hH
    exact C126_determinants_fail E L he hq hs _ 2 1 3 (rectConf_ok _ _ _ _ _ (by decide) (by decide) (by decide)) (by unfold Config.Full; decide +kernel)
      (by decide +kernel) I B hB [] true dets hb H hH guesses18 (guess_in_basis _ (by decide +kernel) dets hb _ (by decide +kernel)) (by decide +kernel)
      (by decide +kernel) (by decide +kernel) 4 (by decide) (by decide) tol (by simpa [guesses18] using ht) stp dimMax

end

/-! ### Cases -/

/-- The matrix with zeros on the diagonal and `-1` beside it. -/
def swapMat : Matrix (Fin 2) (Fin 2) ℝ := fun i j => if i = j then 0 else -1

theorem swapMat_symm : swapMat.IsSymm := by
  ext i j
  simp only [Matrix.transpose_apply, swapMat, eq_comm]

/-- A start below the diagonal. -/
example : strictDavidson realLib swapMat 1 (some [fun i => if i = 0 then 3 / 5 else 4 / 5]) 100 (1 / 1000) 0 =
    modifiedDavidson realLib swapMat 1 (some [fun i => if i = 0 then 3 / 5 else 4 / 5]) 100 (1 / 1000) 0 := by
  refine C126_below_partial realLib realLib_eigh realLib_qr swapMat swapMat_symm 1 _ 100 _ 0 ?_ (by simp) ?_
  · rw [ortho_iff]
    refine ⟨?_, by simp⟩
    intro v hv
    obtain rfl := List.mem_singleton.1 hv
    simp [dotProduct, Fin.sum_univ_two]
    norm_num
  · rintro y ⟨z, hy'⟩ hy i
    obtain ⟨x, rfl⟩ : ∃ x : ℝ, y = x • (fun i : Fin 2 => if i = 0 then (3 / 5 : ℝ) else 4 / 5) := ⟨z ⟨0, by simp⟩, hy'.trans (Fin.sum_univ_one _)⟩
    have hz : x ≠ 0 := by
      rintro rfl
      exact hy (zero_smul _ _)
    have h2 : 0 < x * x := mul_self_pos.2 hz
    simp only [swapMat, dotProduct, mulVec, Fin.sum_univ_two, Pi.smul_apply, smul_eq_mul]
    simp
    nlinarith

/-- A start on the diagonal. -/
example (stp : Nat) : strictDavidson realLib swapMat 1 (some (unitVectors [0])) (stp + 1) (1 / 2) 0 = .error .zeroDivisionError := by
  refine C126_vectors_fail realLib realLib_eigh realLib_qr realLib_sqrt swapMat swapMat_symm [0] (by simp) ?_ 1 (by simp) (by simp) stp _ 0 ?_
  · intro k hk l hl hkl
    simp only [List.mem_singleton] at hk hl
    exact absurd (hk.trans hl.symm) hkl
  · intro k hk
    obtain rfl := List.mem_singleton.1 hk
    refine ⟨1, by simp, ?_, ?_⟩
    · intro k' hk' h
      exact absurd (List.mem_singleton.1 hk') h
    · norm_num [swapMat]

/-- The couplings and the tolerance of main.py. -/
example (stp : Nat) : ∃ dets H, constructBasis (rectConf 2 2 2 4 6) = .ok dets ∧
    buildHamiltonian exEnv (rectConf 2 2 2 4 6)
      (⟨-55 / 100, 123 / 1000, 156 / 1000, 104 / 1000, -80 / 1000, -41 / 1000, 112 / 1000, -47 / 1000, 177 / 100, 79 / 100⟩ : Interactions ℝ) dets
      ⟨true, true, true, true, true, true⟩ [] true = .ok H ∧
    ∃ a V, guessMatrix (rectConf 2 2 2 4 6) 6 guesses16 = .ok a ∧ guessColumns H.dim a = .ok V ∧
      strictDavidson realLib H.toMatrix 6 (some V) (stp + 1) (1 / 10000) 500 = .error .zeroDivisionError := by
  have hc : RectConf (rectConf 2 2 2 4 6) 2 2 2 := rectConf_ok _ _ _ _ _ (by decide) (by decide) (by decide)
  obtain ⟨dets, H, h1, h2, _⟩ := C30_no_failure exEnv _ 2 2 2 hc (by unfold Config.Full; decide +kernel) (by decide +kernel)
    (⟨-55 / 100, 123 / 1000, 156 / 1000, 104 / 1000, -80 / 1000, -41 / 1000, 112 / 1000, -47 / 1000, 177 / 100, 79 / 100⟩ : Interactions ℝ)
    ⟨true, true, true, true, true, true⟩ [] true
  exact ⟨dets, H, h1, h2, (C126_main_guesses_fail exEnv realLib realLib_eigh realLib_qr realLib_sqrt _ _ rfl (1 / 10000) (by norm_num) stp 500).1 dets H h1 h2⟩

end TJ
