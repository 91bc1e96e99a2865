/-
C141: whether `modified_davidson_algorithm` keeps the symmetry of its initial guess.
-/
import Mathlib.LinearAlgebra.Dimension.Finite
import Mathlib.LinearAlgebra.Dimension.Constructions
import Verif.Props.LowestFound
import Verif.Props.DavidsonGuess
import Verif.Props.DavidsonSpace
import Verif.Props.Symmetry
import Verif.Props.Multiplets
import Verif.Props.Dependance
import Verif.Props.FerroUnique
import Verif.Props.SumRule
import Verif.Lemmas.FarConfs

namespace TJ

open Finset Matrix

section
variable {K : Type} [Field K] {d : Nat}

/-- The vectors multiplied by `ε` when the basis is permuted by `f` (`ε = 1`: even, `ε = -1`: odd). -/
def parityStates (f : Fin d → Fin d) (ε : K) : Submodule K (Fin d → K) where
  carrier := {x | ∀ i, x (f i) = ε * x i}
  add_mem' hx hy i := by simp only [Pi.add_apply, hx i, hy i]; ring
  zero_mem' i := by simp
  smul_mem' a x hx i := by simp only [Pi.smul_apply, smul_eq_mul, hx i]; ring

/-- The subspace is closed under the matrix and under all functions of its diagonal. -/
structure ClosedUnder (A : Matrix (Fin d) (Fin d) K) (S : Submodule K (Fin d → K)) : Prop where
  op : ∀ x ∈ S, A *ᵥ x ∈ S
  diag : ∀ (g : K → K) (x : Fin d → K), x ∈ S → (fun i => g (A i i) * x i) ∈ S

theorem parityStates_closed {A : Matrix (Fin d) (Fin d) K} {f : Fin d → Fin d} (hf : Function.Injective f)
    (hA : ∀ i j, A (f i) (f j) = A i j) (ε : K) : ClosedUnder A (parityStates f ε) := by
  constructor
  · intro x hx i
    have hb : Function.Bijective f := Finite.injective_iff_bijective.1 hf
    simp only [mulVec, dotProduct]
    rw [← hb.sum_comp (fun j => A (f i) j * x j), mul_sum]
    refine sum_congr rfl fun j _ => ?_
    rw [hA, hx j]
    ring
  · intro g x hx i
    show g (A (f i) (f i)) * x (f i) = ε * (g (A i i) * x i)
    rw [hA, hx i]
    ring

end

section
variable {K : Type} [Field K] [LinearOrder K] [IsStrictOrderedRing K] {d : Nat}

/-- The columns orthonormalised at the end of an iteration with search space `W` (Ritz vectors or search space, and the residues divided by
the differences between diagonal and Ritz values) are linearly independent. -/
def IndependentStep (L : LinAlg K) (A : Matrix (Fin d) (Fin d) K) (nb dimMax : Nat) (W : List (Fin d → K)) : Prop :=
  ∀ vals us rs, ritz L A W nb = .ok (vals, us, rs) → ∀ corr : List (Fin d → K),
    (corr.length = nb ∧ ∀ k < nb, ∀ i, corr.getD k 0 i = 1 / (A i i - vals.getD k 0) * rs.getD k 0 i) →
    LinearIndependent K ((if (dimMax : Int) - nb < d then us else W) ++ corr).get

/-- The orthonormalisation of independent columns stays in every subspace that contains them. -/
theorem qr_stays {L : LinAlg K} (hq : L.ExactQr) {V : List (Fin d → K)} (hi : LinearIndependent K V.get)
    {S : Submodule K (Fin d → K)} (hS : ∀ v ∈ V, v ∈ S) : ∀ w ∈ L.qr d V, w ∈ S := by
  obtain ⟨q1, q2, q3⟩ := hq d V
  have hle : Submodule.span K (Set.range V.get) ≤ Submodule.span K (Set.range (L.qr d V).get) := by
    rw [Submodule.span_le]
    rintro _ ⟨i, rfl⟩
    obtain ⟨y, hy⟩ := q3 _ (List.get_mem V i)
    rw [hy]
    exact Submodule.sum_mem _ fun j _ => Submodule.smul_mem _ _ (Submodule.subset_span ⟨j, rfl⟩)
  have h1 : Module.finrank K (Submodule.span K (Set.range V.get)) = V.length := by
    rw [finrank_span_eq_card hi, Fintype.card_fin]
  have h2 : Module.finrank K (Submodule.span K (Set.range (L.qr d V).get)) ≤ V.length := by
    refine (finrank_range_le_card _).trans ?_
    rw [Fintype.card_fin, q1]
    exact min_le_right _ _
  have he := Submodule.eq_of_le_of_finrank_le hle (by omega)
  intro w hw
  obtain ⟨i, rfl⟩ := List.get_of_mem hw
  have : (L.qr d V).get i ∈ Submodule.span K (Set.range V.get) := by
    rw [he]; exact Submodule.subset_span ⟨i, rfl⟩
  refine Submodule.span_le.2 ?_ this
  rintro _ ⟨j, rfl⟩
  exact hS _ (List.get_mem V j)

/-- Ritz vectors and residues of a search space in `S` are in `S`. -/
theorem ritz_stays {L : LinAlg K} {A : Matrix (Fin d) (Fin d) K} {S : Submodule K (Fin d → K)} (hS : ClosedUnder A S)
    {W : List (Fin d → K)} (hW : ∀ w ∈ W, w ∈ S) {nb : Nat} {vals : List K} {us rs : List (Fin d → K)}
    (h : ritz L A W nb = .ok (vals, us, rs)) : (∀ u ∈ us, u ∈ S ∧ InSpan W u) ∧ ∀ r ∈ rs, r ∈ S := by
  obtain ⟨h1, h2, h3, h4, h5⟩ := ritz_ok h
  have hus : ∀ u ∈ us, u ∈ S ∧ InSpan W u := by
    obtain ⟨idx, _, _, _, h6⟩ := ritz_spec L A W nb h1
    rw [h6] at h
    have h := Except.ok.inj h
    simp only [Prod.mk.injEq] at h
    obtain ⟨-, rfl, -⟩ := h
    intro u hu
    obtain ⟨k, _, rfl⟩ := List.mem_map.1 hu
    exact ⟨Submodule.sum_mem _ fun j _ => Submodule.smul_mem _ _ (hW _ (List.get_mem W j)), _, rfl⟩
  refine ⟨hus, fun r hr => ?_⟩
  obtain ⟨k, hk, rfl⟩ := List.getElem_of_mem hr
  rw [h5 k (by omega) (by omega) hk]
  have := (hus _ (List.getElem_mem (by omega : k < us.length))).1
  exact Submodule.sub_mem _ (Submodule.smul_mem _ _ this) (hS.op _ this)

theorem correction_stays {A : Matrix (Fin d) (Fin d) K} {S : Submodule K (Fin d → K)} (hS : ClosedUnder A S) (lam : K)
    {x : Fin d → K} (hx : x ∈ S) : precondition A lam x ∈ S := hS.diag (fun a => 1 / (a - lam)) x hx

theorem NextSpace.stays {L : LinAlg K} (hq : L.ExactQr) {A : Matrix (Fin d) (Fin d) K} {S : Submodule K (Fin d → K)}
    (hS : ClosedUnder A S) {nb : Nat} {tol : K} {dimMax : Nat} {W W' : List (Fin d → K)} (h : NextSpace L A nb tol dimMax W W')
    (hi : IndependentStep L A nb dimMax W) (hW : ∀ w ∈ W, w ∈ S) : ∀ w ∈ W', w ∈ S := by
  obtain ⟨vals, us, rs, corr, h1, _, ⟨h2, h3⟩, rfl⟩ := h
  obtain ⟨s1, s2⟩ := ritz_stays hS hW h1
  obtain ⟨_, _, _, h4, _⟩ := ritz_ok h1
  have hc : ∀ c ∈ corr, c ∈ S := by
    intro c hc
    obtain ⟨k, hk, rfl⟩ := List.getElem_of_mem hc
    have := h3 k (by omega)
    rw [List.getD_eq_getElem?_getD, List.getElem?_eq_getElem hk, Option.getD_some] at this
    rw [this]
    refine correction_stays hS _ (s2 _ ?_)
    rw [List.getD_eq_getElem?_getD, List.getElem?_eq_getElem (by omega), Option.getD_some]
    exact List.getElem_mem _
  have hind := hi vals us rs h1 corr ⟨h2, fun k hk i => by rw [h3 k hk]; rfl⟩
  by_cases hm : (dimMax : Int) - nb < d
  · have e : (if (dimMax : Int) - nb < d then us else W) = us := if_pos hm
    rw [if_pos hm]
    rw [e] at hind
    refine qr_stays hq hind fun v hv => ?_
    rcases List.mem_append.1 hv with hv | hv
    · exact (s1 v hv).1
    · exact hc v hv
  · have e : (if (dimMax : Int) - nb < d then us else W) = W := if_neg hm
    rw [if_neg hm]
    rw [e] at hind
    refine qr_stays hq hind fun v hv => ?_
    rcases List.mem_append.1 hv with hv | hv
    · exact hW v hv
    · exact hc v hv

/-- All search spaces of a chain stay in `S`. -/
theorem chain_stays {L : LinAlg K} (hq : L.ExactQr) {A : Matrix (Fin d) (Fin d) K} {S : Submodule K (Fin d → K)}
    (hS : ClosedUnder A S) {nb : Nat} {tol : K} {dimMax : Nat} :
    ∀ (T : List (List (Fin d → K))) (V : List (Fin d → K)), (V :: T).IsChain (NextSpace L A nb tol dimMax) →
      (∀ W ∈ (V :: T).dropLast, IndependentStep L A nb dimMax W) → (∀ w ∈ V, w ∈ S) → ∀ W ∈ V :: T, ∀ w ∈ W, w ∈ S
  | [], V, _, _, hV, W, hW => by
    obtain rfl := List.mem_singleton.1 hW
    exact hV
  | V' :: T, V, hc, hi, hV, W, hW => by
    obtain ⟨c1, c2⟩ := List.isChain_cons_cons.1 hc
    rcases List.mem_cons.1 hW with rfl | hW
    · exact hV
    · refine chain_stays hq hS T V' c2 (fun W hW => hi W ?_) (c1.stays hq hS (hi V (by simp)) hV) W hW
      rw [List.dropLast_cons_of_ne_nil (by simp)]
      exact List.mem_cons_of_mem _ hW

/-- C141, part: a guess in a subspace that is closed under the matrix and its diagonal (for instance the even or the odd vectors of a
symmetry, `parityStates_closed`) leads to search spaces and results in this subspace, as long as no array of dependent columns is
orthonormalised. Missing: dependent columns, see `C141_leaves`. -/
theorem C141_kept_partial (L : LinAlg K) (hq : L.ExactQr) (A : Matrix (Fin d) (Fin d) K) (S : Submodule K (Fin d → K))
    (hS : ClosedUnder A S) (nbVal : Nat) (g : List (Fin d → K)) (hg : ∀ v ∈ g, v ∈ S) (stp : Nat) (tol : K) (dimMax : Nat)
    (r : DavidsonResult K d) (h : modifiedDavidson L A nbVal (some g) stp tol dimMax = .ok r)
    (hgi : 1 < min nbVal (if dimMax = 0 then d else dimMax) → LinearIndependent K g.get)
    (hi : ∀ W ∈ r.trace.dropLast, IndependentStep L A (min nbVal (if dimMax = 0 then d else dimMax)) (if dimMax = 0 then d else dimMax) W) :
    (∀ W ∈ r.trace, ∀ w ∈ W, w ∈ S) ∧ ∀ u ∈ r.eigvects, u ∈ S := by
  unfold modifiedDavidson at h
  dsimp only at h
  cases stp with
  | zero => cases h
  | succ stp =>
    obtain ⟨T, W, rs, t1, t2, t3, t4, t5, t6⟩ := davidsonLoop_result h
    rw [List.nil_append] at t1
    rw [t1] at hi
    rw [Option.getD_some] at t1 t2 t3 hi
    generalize (if dimMax = 0 then d else dimMax) = dm at *
    have hV : ∀ w ∈ (if 1 < min nbVal dm then L.qr d g else g), w ∈ S := by
      split_ifs with h1
      · exact qr_stays hq (hgi h1) hg
      · exact hg
    have key := chain_stays hq hS T _ t3 hi hV
    refine ⟨by rw [t1]; exact key, fun u hu => ?_⟩
    exact ((ritz_stays hS (key W (List.mem_of_getLast? t2)) t4).1 u hu).1

/-- C141. The energies found then are bounded by the lowest energy of the subspace: a lower energy with another symmetry is missed. -/
theorem C141_energies (L : LinAlg K) (he : L.ExactEigh) (hq : L.ExactQr) (A : Matrix (Fin d) (Fin d) K) (hA : A.IsSymm)
    (S : Submodule K (Fin d → K)) (m : K) (hm : ∀ x ∈ S, m * (x ⬝ᵥ x) ≤ x ⬝ᵥ (A *ᵥ x))
    (nbVal : Nat) (guess : Option (List (Fin d → K))) (stp : Nat) (tol : K) (dimMax : Nat) (r : DavidsonResult K d)
    (h : modifiedDavidson L A nbVal guess stp tol dimMax = .ok r)
    (ho : 1 < min nbVal (if dimMax = 0 then d else dimMax) ∨ (∃ g, guess = some g ∧ Ortho g) ∨ 2 ≤ r.trace.length)
    (hr : ∀ u ∈ r.eigvects, u ∈ S) : ∀ lam ∈ r.eigvals, m ≤ lam := by
  obtain ⟨c1, c2, _⟩ := C50_converged L A nbVal guess stp tol dimMax r h
  obtain ⟨o1, _, o3, _⟩ := C51_ritz_bounds L he hq A hA nbVal guess stp tol dimMax r h ho
  intro lam hl
  obtain ⟨k, hk, rfl⟩ := List.getElem_of_mem hl
  have hk' : k < r.eigvects.length := by omega
  have hu : r.eigvects[k] ⬝ᵥ r.eigvects[k] = 1 := ((ortho_iff _).1 o1).1 _ (List.getElem_mem _)
  have := hm _ (hr _ (List.getElem_mem hk'))
  rwa [o3 k hk hk', hu, mul_one] at this

/-- Orthogonal vectors that are not zero are independent. -/
theorem orthogonal_independent {V : List (Fin d → K)} (h : ∀ i j, i ≠ j → V.get i ⬝ᵥ V.get j = 0) (h0 : ∀ i, V.get i ≠ 0) :
    LinearIndependent K V.get := by
  rw [Fintype.linearIndependent_iff]
  intro g hg i
  have h1 : (∑ j, g j • V.get j) ⬝ᵥ V.get i = g i * (V.get i ⬝ᵥ V.get i) := by
    have := combine_dot_left V g (V.get i)
    unfold combine at this
    rw [this, Finset.sum_eq_single i]
    · intro j _ hj
      rw [h _ _ hj, mul_zero]
    · intro hi; exact absurd (Finset.mem_univ _) hi
  rw [hg, zero_dotProduct] at h1
  rcases mul_eq_zero.1 h1.symm with h2 | h2
  · exact h2
  · exact absurd (dotProduct_self_eq_zero.1 h2) (h0 i)

theorem ortho_independent {V : List (Fin d → K)} (h : Ortho V) : LinearIndependent K V.get := by
  refine orthogonal_independent (fun i j hij => by rw [h, if_neg hij]) (fun i h0 => ?_)
  have := h i i
  rw [h0, zero_dotProduct, if_pos rfl] at this
  exact zero_ne_one this

/-- C141 fails in small subspaces: if the subspace has fewer than `2 nb_val` dimensions (and is not the whole space), the second search
space is not contained in it, for every exact library. -/
theorem C141_leaves (L : LinAlg K) (hq : L.ExactQr) (A : Matrix (Fin d) (Fin d) K) (S : Submodule K (Fin d → K))
    (nbVal : Nat) (g : List (Fin d → K)) (stp : Nat) (tol : K) (dimMax : Nat) (r : DavidsonResult K d)
    (h : modifiedDavidson L A nbVal (some g) stp tol dimMax = .ok r) (h2 : 2 ≤ r.trace.length)
    (hd : Module.finrank K S < min d (2 * min nbVal (if dimMax = 0 then d else dimMax))) : ∃ w ∈ r.trace[1], w ∉ S := by
  unfold modifiedDavidson at h
  dsimp only at h
  cases stp with
  | zero => cases h
  | succ stp =>
    obtain ⟨T, W, rs, t1, t2, t3, t4, t5, t6⟩ := davidsonLoop_result h
    rw [List.nil_append] at t1
    generalize (if dimMax = 0 then d else dimMax) = dm at *
    generalize min nbVal dm = nb at *
    cases T with
    | nil => rw [t1] at h2; simp at h2
    | cons W' T =>
      obtain ⟨c1, _⟩ := List.isChain_cons_cons.1 t3
      generalize (if 1 < nb then L.qr d ((some g).getD (L.rand d nb)) else (some g).getD (L.rand d nb)) = V0 at *
      have e1 : r.trace[1] = W' := by simp [t1]
      rw [e1]
      have ho := c1.ortho hq
      have hlen : min d (2 * nb) ≤ W'.length := by
        obtain ⟨vals, us, rs, corr, h1, _, ⟨h3, _⟩, hW'⟩ := c1
        obtain ⟨l1, _, l2, _⟩ := ritz_ok h1
        rw [hW']
        split_ifs <;> rw [(hq d _).1, List.length_append] <;> omega
      by_contra hcon
      push Not at hcon
      have hli := ortho_independent ho
      have hle : Submodule.span K (Set.range W'.get) ≤ S := by
        rw [Submodule.span_le]
        rintro _ ⟨i, rfl⟩
        exact hcon _ (List.get_mem W' i)
      have := Submodule.finrank_mono hle
      rw [finrank_span_eq_card hli, Fintype.card_fin] at this
      omega

/-- The residues are orthogonal to the search space. -/
theorem residue_orthogonal {L : LinAlg K} (he : L.ExactEigh) {A : Matrix (Fin d) (Fin d) K} (hA : A.IsSymm) {W : List (Fin d → K)}
    (hW : Ortho W) {nb : Nat} {vals : List K} {us rs : List (Fin d → K)} (h : ritz L A W nb = .ok (vals, us, rs)) :
    ∀ w ∈ W, ∀ r ∈ rs, w ⬝ᵥ r = 0 := by
  intro w hw r hr
  obtain ⟨h1, h2, h3, h4, h5⟩ := ritz_ok h
  obtain ⟨k, hk, rfl⟩ := List.getElem_of_mem hr
  rw [h5 k (by omega) (by omega) hk]
  obtain ⟨idx, i1, _, _, h6⟩ := ritz_spec L A W nb h1
  obtain ⟨e1, _⟩ := he W.length (rayleigh A W) (rayleigh_symm hA W)
  rw [h6] at h
  have h := Except.ok.inj h
  simp only [Prod.mk.injEq] at h
  obtain ⟨rfl, rfl, rfl⟩ := h
  simp only [List.getElem_map]
  obtain ⟨i, rfl⟩ := List.get_of_mem hw
  have hk' : k < idx.length := by omega
  set y := (L.eigh W.length (rayleigh A W)).2 idx[k] with hy
  have hev := congrFun (e1 idx[k]) i
  rw [← hy] at hev
  have g1 : W.get i ⬝ᵥ combine W y = y i := by
    rw [combine_dot_right, Finset.sum_eq_single i]
    · rw [hW, if_pos rfl, mul_one]
    · intro j _ hj
      rw [hW, if_neg (Ne.symm hj), mul_zero]
    · intro hi; exact absurd (Finset.mem_univ _) hi
  have g2 : W.get i ⬝ᵥ (A *ᵥ combine W y) = (rayleigh A W *ᵥ y) i := by
    rw [mulVec_combine, dotProduct_sum]
    simp only [dotProduct_smul, smul_eq_mul, mulVec, rayleigh]
    rw [dotProduct]
    exact Finset.sum_congr rfl fun j _ => mul_comm _ _
  rw [dotProduct_sub, dotProduct_smul, g1, g2, hev]
  simp

/-- The state of the induction for one requested state. -/
theorem one_step {L : LinAlg K} (hL : L.ExactSqrt) (he : L.ExactEigh) (hq : L.ExactQr) {A : Matrix (Fin d) (Fin d) K} (hA : A.IsSymm) {δ : K}
    (hδ : ∀ i, A i i = δ) {S : Submodule K (Fin d → K)} (hS : ClosedUnder A S) {tol : K} (ht : 0 ≤ tol) {dimMax : Nat}
    {W W' : List (Fin d → K)} (h : NextSpace L A 1 tol dimMax W W') (hW : Ortho W) (hWS : ∀ w ∈ W, w ∈ S)
    {x : Fin d → K} (hx : InSpan W x) (hx1 : x ⬝ᵥ x = 1) (hxe : x ⬝ᵥ (A *ᵥ x) < δ) :
    IndependentStep L A 1 dimMax W ∧ Ortho W' ∧ (∀ w ∈ W', w ∈ S) ∧ ∃ x, InSpan W' x ∧ x ⬝ᵥ x = 1 ∧ x ⬝ᵥ (A *ᵥ x) < δ := by
  obtain ⟨vals, us, rs, corr, h1, ⟨r0, hr0, hr1⟩, ⟨h2, h3⟩, hW'⟩ := id h
  obtain ⟨l1, l2, l3, l4, l5⟩ := ritz_ok h1
  obtain ⟨o1, o2, _⟩ := ritz_exact he hA hW h1
  have hlow := ritz_lowest he hA hW h1 (by omega) hx
  rw [hx1, mul_one] at hlow
  have hlam : vals[0] < δ := hlow.trans_lt hxe
  have hr0' : rs = [r0] := by
    obtain ⟨y, rfl⟩ := List.length_eq_one_iff.1 l4
    rw [List.mem_singleton.1 hr0]
  have hne : r0 ≠ 0 := by
    rintro rfl
    exact hr1 ((norm_le_iff hL _ _).2 ⟨ht, by rw [zero_dotProduct]; exact mul_self_nonneg _⟩)
  have hcorr : corr = [(δ - vals[0])⁻¹ • r0] := by
    obtain ⟨y, rfl⟩ := List.length_eq_one_iff.1 h2
    have := h3 0 (by omega)
    rw [hr0'] at this
    simp only [List.getD_cons_zero] at this
    rw [this, List.getD_eq_getElem?_getD, List.getElem?_eq_getElem (by omega), Option.getD_some]
    congr 1
    funext i
    simp [precondition, hδ]
  have hcne : (δ - vals[0])⁻¹ • r0 ≠ 0 := by
    refine smul_ne_zero ?_ hne
    exact inv_ne_zero (sub_ne_zero.2 (ne_of_gt hlam))
  have hres := residue_orthogonal he hA hW h1
  have husin := (ritz_stays hS hWS h1).1
  have hperpW : ∀ w ∈ W, w ⬝ᵥ ((δ - vals[0])⁻¹ • r0) = 0 := by
    intro w hw
    rw [dotProduct_smul, hres w hw r0 hr0, smul_zero]
  have hperpU : ∀ u ∈ us, u ⬝ᵥ ((δ - vals[0])⁻¹ • r0) = 0 := by
    intro u hu
    obtain ⟨y, hy⟩ := (husin u hu).2
    rw [hy, sum_dotProduct]
    exact Finset.sum_eq_zero fun i _ => by rw [smul_dotProduct, hperpW _ (List.get_mem W i), smul_zero]
  have hind : ∀ X : List (Fin d → K), Ortho X → (∀ v ∈ X, v ⬝ᵥ ((δ - vals[0])⁻¹ • r0) = 0) → LinearIndependent K (X ++ corr).get := by
    intro X hX hp
    rw [ortho_iff] at hX
    rw [hcorr]
    have hpw : (X ++ [(δ - vals[0])⁻¹ • r0]).Pairwise (fun a b => a ⬝ᵥ b = 0) := by
      rw [List.pairwise_append]
      exact ⟨hX.2, List.pairwise_singleton _ _, fun a ha b hb => by rw [List.mem_singleton.1 hb]; exact hp a ha⟩
    refine orthogonal_independent ?_ ?_
    · intro i j hij
      rcases lt_or_gt_of_ne hij with hlt | hlt
      · exact List.pairwise_iff_get.1 hpw i j hlt
      · rw [dotProduct_comm]; exact List.pairwise_iff_get.1 hpw j i hlt
    · intro i
      have := List.get_mem (X ++ [(δ - vals[0])⁻¹ • r0]) i
      rcases List.mem_append.1 this with hm | hm
      · intro h0
        have := hX.1 _ hm
        rw [h0, zero_dotProduct] at this
        exact zero_ne_one this
      · rw [List.mem_singleton.1 hm]
        exact hcne
  have hstep : IndependentStep L A 1 dimMax W := by
    intro vals' us' rs' h1' corr' ⟨k1, k2⟩
    rw [h1] at h1'
    have h1' := Except.ok.inj h1'
    simp only [Prod.mk.injEq] at h1'
    obtain ⟨rfl, rfl, rfl⟩ := h1'
    have : corr' = corr := by
      obtain ⟨y, rfl⟩ := List.length_eq_one_iff.1 h2
      obtain ⟨y', rfl⟩ := List.length_eq_one_iff.1 k1
      have e1 := h3 0 (by omega)
      have e2 := k2 0 (by omega)
      simp only [List.getD_cons_zero] at e1 e2
      rw [e1]
      congr 1
      funext i
      exact e2 i
    rw [this]
    by_cases hm : (dimMax : Int) - (1 : Nat) < d
    · have e : (if (dimMax : Int) - (1 : Nat) < d then us else W) = us := if_pos hm
      rw [e]
      exact hind us o1 hperpU
    · have e : (if (dimMax : Int) - (1 : Nat) < d then us else W) = W := if_neg hm
      rw [e]
      exact hind W hW hperpW
  have hus0 : us[0] ∈ us := List.getElem_mem _
  refine ⟨hstep, h.ortho hq, h.stays hq hS hstep hWS, us[0], ?_, ((ortho_iff _).1 o1).1 _ hus0, ?_⟩
  · rw [hW']
    split_ifs
    · exact (hq d _).2.2 _ (List.mem_append_left _ hus0)
    · exact (husin _ hus0).2.mono fun v hv => (hq d _).2.2 v (List.mem_append_left _ hv)
  · rw [o2 0 (by omega) (by omega)]
    exact hlam

/-- C141. One requested state and a constant diagonal `δ` (for instance without static interactions): a unit guess of definite symmetry whose
mean energy is below `δ` leads to a result of the same symmetry, in every run. These runs meet the hypothesis of `C141_kept_partial`: no
array of dependent columns is orthonormalised. -/
theorem C141_one_state (L : LinAlg K) (hL : L.ExactSqrt) (he : L.ExactEigh) (hq : L.ExactQr) (A : Matrix (Fin d) (Fin d) K) (hA : A.IsSymm)
    (δ : K) (hδ : ∀ i, A i i = δ) (S : Submodule K (Fin d → K)) (hS : ClosedUnder A S) (g : Fin d → K) (hg : g ∈ S) (hg1 : g ⬝ᵥ g = 1)
    (hge : g ⬝ᵥ (A *ᵥ g) < δ) (stp : Nat) (tol : K) (ht : 0 ≤ tol) (dimMax : Nat) (r : DavidsonResult K d)
    (h : modifiedDavidson L A 1 (some [g]) stp tol dimMax = .ok r) :
    (∀ W ∈ r.trace, ∀ w ∈ W, w ∈ S) ∧ (∀ u ∈ r.eigvects, u ∈ S) ∧
      ∀ W ∈ r.trace.dropLast, IndependentStep L A 1 (if dimMax = 0 then d else dimMax) W := by
  have hd : 0 < d := by
    by_contra h0
    obtain rfl : d = 0 := by omega
    simp at hg1
  unfold modifiedDavidson at h
  dsimp only at h
  have hmin : min 1 (if dimMax = 0 then d else dimMax) = 1 := by split_ifs <;> omega
  rw [hmin] at h
  generalize (if dimMax = 0 then d else dimMax) = dm at h ⊢
  rw [if_neg (by omega), Option.getD_some] at h
  cases stp with
  | zero => cases h
  | succ stp =>
    obtain ⟨T, W, rs, t1, t2, t3, t4, t5, t6⟩ := davidsonLoop_result h
    rw [List.nil_append] at t1
    have chain : ∀ (T : List (List (Fin d → K))) (V : List (Fin d → K)), (V :: T).IsChain (NextSpace L A 1 tol dm) → Ortho V →
        (∀ w ∈ V, w ∈ S) → (∃ x, InSpan V x ∧ x ⬝ᵥ x = 1 ∧ x ⬝ᵥ (A *ᵥ x) < δ) →
        (∀ W ∈ V :: T, ∀ w ∈ W, w ∈ S) ∧ ∀ W ∈ (V :: T).dropLast, IndependentStep L A 1 dm W := by
      intro T
      induction T with
      | nil =>
        intro V _ _ hVS _
        refine ⟨fun W hW => ?_, fun W hW => by simp at hW⟩
        obtain rfl := List.mem_singleton.1 hW
        exact hVS
      | cons V' T ih =>
        intro V hc hV hVS ⟨x, x1, x2, x3⟩
        obtain ⟨c1, c2⟩ := List.isChain_cons_cons.1 hc
        obtain ⟨s0, s1, s2, s3⟩ := one_step hL he hq hA hδ hS ht c1 hV hVS x1 x2 x3
        obtain ⟨i1, i2⟩ := ih V' c2 s1 s2 s3
        refine ⟨fun W hW => ?_, fun W hW => ?_⟩
        · rcases List.mem_cons.1 hW with rfl | hW
          · exact hVS
          · exact i1 W hW
        · rw [List.dropLast_cons_of_ne_nil (by simp)] at hW
          rcases List.mem_cons.1 hW with rfl | hW
          · exact s0
          · exact i2 W hW
    obtain ⟨key, key2⟩ := chain T [g] t3 (by rw [ortho_iff]; simpa using hg1) (by simpa using hg) ⟨g, inSpan_get (by simp), hg1, hge⟩
    refine ⟨by rw [t1]; exact key, fun u hu => ?_, by rw [t1]; exact key2⟩
    exact ((ritz_stays hS (key W (List.mem_of_getLast? t2)) t4).1 u hu).1

/-! ### The lattices -/

/-- The coefficient of a determinant is multiplied by `ε` when the determinant is replaced with the one related to it by `R`. -/
def HasParity {c : Config} (dets : List (List Nat)) (R : Conf c.nsites → Conf c.nsites → Prop) (ε : K) (x : Fin d → K) : Prop :=
  ∀ (i j : Fin d) (hi : i.1 < dets.length) (hj : j.1 < dets.length), R (conf c dets[i.1]) (conf c dets[j.1]) → x j = ε * x i

theorem parity_closed {c : Config} {dets : List (List Nat)} {R : Conf c.nsites → Conf c.nsites → Prop} {A : Matrix (Fin d) (Fin d) K}
    (hd : d = dets.length) (ε : K)
    (h1 : ∀ i (hi : i < dets.length), ∃! j : Fin dets.length, R (conf c dets[i]) (conf c dets[j.1]))
    (h2 : ∀ i j k (hi : i < dets.length) (hj : j < dets.length) (hk : k < dets.length), R (conf c dets[i]) (conf c dets[k]) →
      R (conf c dets[j]) (conf c dets[k]) → i = j)
    (h3 : ∀ (i j i' j' : Fin d) (hi : i.1 < dets.length) (hj : j.1 < dets.length) (hi' : i'.1 < dets.length) (hj' : j'.1 < dets.length),
      R (conf c dets[i.1]) (conf c dets[i'.1]) → R (conf c dets[j.1]) (conf c dets[j'.1]) → A i' j' = A i j) :
    ∃ S : Submodule K (Fin d → K), ClosedUnder A S ∧ ∀ x, x ∈ S ↔ HasParity dets R ε x := by
  subst hd
  have hex : ∀ i : Fin dets.length, ∃ j : Fin dets.length, R (conf c dets[i.1]) (conf c dets[j.1]) := fun i => (h1 i.1 i.2).exists
  choose F hF using hex
  refine ⟨parityStates F ε, parityStates_closed ?_ ?_ ε, fun x => ⟨fun hx i j hi hj hR => ?_, fun hx i => ?_⟩⟩
  · intro i j hij
    refine Fin.ext (h2 i.1 j.1 (F i).1 i.2 j.2 (F i).2 (hF i) ?_)
    have e : (F i).1 = (F j).1 := congrArg Fin.val hij
    have := hF j
    simp only [← e] at this
    exact this
  · intro i j
    exact h3 i j _ _ i.2 j.2 (F i).2 (F j).2 (hF i) (hF j)
  · rw [(h1 i.1 hi).unique hR (hF i)]
    exact hx i
  · exact hx i (F i) i.2 (F i).2 (hF i)

/-- C141. Rectangular lattice without static terms, one requested state, a unit guess that is even or odd under a symmetry of the rectangle and
has negative mean energy: all search spaces and the returned state are even or odd likewise. -/
theorem C141_lattice (E : Env) (L : LinAlg K) (hL : L.ExactSqrt) (he : L.ExactEigh) (hq : L.ExactQr) (c : Config) (nbh nbv nb : Nat)
    (hc : RectConf c nbh nbv nb) (hf : c.Full) (hn : c.nholes + c.nbeta ≤ c.nsites) (I : Interactions K) (B : BoolInteractions)
    (hz : B.bz = false) (hV : B.bV = false) (rs : List Nat) (vb : Bool) (dets : List (List Nat)) (hb : constructBasis c = .ok dets)
    (H : SpMat K) (hH : buildHamiltonian E c I dets B rs vb = .ok H) (f : Pt → Pt) (hs : LatSym (nbh * nb) (nbv * nb) f) (ε : K)
    (g : Fin H.dim → K) (hg : HasParity dets (MovedBy (n := c.nsites) (nbh * nb) f) ε g) (hg1 : g ⬝ᵥ g = 1) (hge : g ⬝ᵥ (H.toMatrix *ᵥ g) < 0)
    (stp : Nat) (tol : K) (ht : 0 ≤ tol) (dimMax : Nat) (r : DavidsonResult K H.dim)
    (h : modifiedDavidson L H.toMatrix 1 (some [g]) stp tol dimMax = .ok r) :
    (∀ W ∈ r.trace, ∀ w ∈ W, HasParity dets (MovedBy (n := c.nsites) (nbh * nb) f) ε w) ∧
      ∀ u ∈ r.eigvects, HasParity dets (MovedBy (n := c.nsites) (nbh * nb) f) ε u := by
  obtain ⟨H', g1, hd, _, _⟩ := buildHamiltonian_spec I (hc.tj E) hf hn hb B rs vb
  obtain rfl := Except.ok.inj (hH.symm.trans g1)
  obtain ⟨e, hE⟩ := exists_perm (n := c.nsites) hc.spec.1 hs.keeps
  obtain ⟨S, hS, hmem⟩ := parity_closed (c := c) (dets := dets) (R := MovedBy (nbh * nb) f) (A := H.toMatrix) hd ε
    (fun i hi => C98_moved_exists c nbh nbv nb hc hn dets hb f hs i hi)
    (fun i j k hi hj hk h1 h2 => by
      rw [movedBy_iff hE] at h1 h2
      exact conf_inj hb hi hj (h1.trans h2.symm))
    (fun i j i' j' hi hj hi' hj' h1 h2 => C98_hamiltonian E c nbh nbv nb hc hf hn I B rs vb dets hb H hH f hs i j i' j' hi hj hi' hj' h1 h2)
  obtain ⟨r1, r2, _⟩ := C141_one_state L hL he hq H.toMatrix (by
      ext i j
      exact C32_symmetric E c nbh nbv nb hc hf hn I B rs vb dets hb H hH j i) 0
    (fun i => C36_zero_diagonal E c nbh nbv nb hc hf hn I B hz hV rs vb dets hb H hH i (hd ▸ i.2)) S hS g ((hmem g).2 hg) hg1 hge stp tol ht
    dimMax r h
  exact ⟨fun W hW w hw => (hmem w).1 (r1 W hW w hw), fun u hu => (hmem u).1 (r2 u hu)⟩

/-- C141. The same for the reversal of all spins, with as many up as down spins. -/
theorem C141_reversal (E : Env) (L : LinAlg K) (hL : L.ExactSqrt) (he : L.ExactEigh) (hq : L.ExactQr) (c : Config) (nbh nbv nb : Nat)
    (hc : RectConf c nbh nbv nb) (hf : c.Full) (hn : c.nholes + 2 * c.nbeta = c.nsites) (I : Interactions K) (B : BoolInteractions)
    (hz : B.bz = false) (hV : B.bV = false) (rs : List Nat) (vb : Bool) (dets : List (List Nat)) (hb : constructBasis c = .ok dets)
    (H : SpMat K) (hH : buildHamiltonian E c I dets B rs vb = .ok H) (ε : K)
    (g : Fin H.dim → K) (hg : HasParity dets (fun σ τ : Conf c.nsites => ∀ s, τ s = (σ s).rev) ε g) (hg1 : g ⬝ᵥ g = 1)
    (hge : g ⬝ᵥ (H.toMatrix *ᵥ g) < 0)
    (stp : Nat) (tol : K) (ht : 0 ≤ tol) (dimMax : Nat) (r : DavidsonResult K H.dim)
    (h : modifiedDavidson L H.toMatrix 1 (some [g]) stp tol dimMax = .ok r) :
    (∀ W ∈ r.trace, ∀ w ∈ W, HasParity dets (fun σ τ : Conf c.nsites => ∀ s, τ s = (σ s).rev) ε w) ∧
      ∀ u ∈ r.eigvects, HasParity dets (fun σ τ : Conf c.nsites => ∀ s, τ s = (σ s).rev) ε u := by
  have hn' : c.nholes + c.nbeta ≤ c.nsites := by omega
  obtain ⟨H', g1, hd, _, _⟩ := buildHamiltonian_spec I (hc.tj E) hf hn' hb B rs vb
  obtain rfl := Except.ok.inj (hH.symm.trans g1)
  have hel := C31_matrix_elements E c nbh nbv nb hc hf hn' I B rs vb dets hb H hH
  obtain ⟨S, hS, hmem⟩ := parity_closed (c := c) (dets := dets) (R := fun σ τ : Conf c.nsites => ∀ s, τ s = (σ s).rev) (A := H.toMatrix) hd ε
    (fun i hi => by
      have hcan := canonical_getElem hb i hi
      have h1 := count_conf_hole hn' hcan.1
      have h2 := count_conf_down hn' hcan.1
      have h3 := count_rev (conf c dets[i])
      have h4 := count_total (conf c dets[i])
      obtain ⟨k, hk, hk2⟩ := exists_conf hb hn' (σ := (conf c dets[i]).rev) (by rw [h3.1, h1]) (by rw [h3.2]; omega)
      refine ⟨⟨k, hk⟩, fun s => congrFun hk2 s, ?_⟩
      rintro ⟨k', hk'⟩ h
      exact Fin.ext (conf_inj hb hk' hk ((funext h).trans hk2.symm)))
    (fun i j k hi hj hk h1 h2 => conf_inj hb hi hj (funext fun s => Occ.rev_inj.1 ((h1 s).symm.trans (h2 s))))
    (fun i j i' j' hi hj hi' hj' h1 h2 => by
      show H.entry i' j' = H.entry i j
      have e1 : conf c dets[i'.1] = (conf c dets[i.1]).rev := funext h1
      have e2 : conf c dets[j'.1] = (conf c dets[j.1]).rev := funext h2
      rw [hel i' j' hi' hj', hel i j hi hj, e1, e2, hamEl_rev])
  obtain ⟨r1, r2, _⟩ := C141_one_state L hL he hq H.toMatrix (by
      ext i j
      exact C32_symmetric E c nbh nbv nb hc hf hn' I B rs vb dets hb H hH j i) 0
    (fun i => C36_zero_diagonal E c nbh nbv nb hc hf hn' I B hz hV rs vb dets hb H hH i (hd ▸ i.2)) S hS g ((hmem g).2 hg) hg1 hge stp tol ht
    dimMax r h
  exact ⟨fun W hW w hw => (hmem w).1 (r1 W hW w hw), fun u hu => (hmem u).1 (r2 u hu)⟩

end

/-! ### Cases that meet the hypotheses -/

/-- Three sites in a row, a hole, a down and an up spin, hopping `t = -1` alone: started with equal coefficients, the returned state is
even under the mirror and under the reversal of the spins. -/
example : ∃ dets H r, constructBasis (rectConf 3 1 1 1 1) = .ok dets ∧
    buildHamiltonian exEnv (rectConf 3 1 1 1 1) (⟨-1, 2, 3, 4, 5, 6, 7, 8, 9, 10⟩ : Interactions ℝ) dets hoppingOnly [] true = .ok H ∧
    modifiedDavidson realLib H.toMatrix 1 (some [fun _ => (√6)⁻¹]) 7 (1 / 1000) 0 = .ok r ∧
    ∀ u ∈ r.eigvects, HasParity dets (MovedBy (n := (rectConf 3 1 1 1 1).nsites) 3 (mirrorX 3)) 1 u ∧
      HasParity dets (fun σ τ : Conf (rectConf 3 1 1 1 1).nsites => ∀ s, τ s = (σ s).rev) 1 u := by
  have hc : RectConf (rectConf 3 1 1 1 1) 3 1 1 := rectConf_ok _ _ _ _ _ (by decide) (by decide) (by decide)
  have hf : Config.Full (rectConf 3 1 1 1 1) := by unfold Config.Full; decide
  set I : Interactions ℝ := ⟨-1, 2, 3, 4, 5, 6, 7, 8, 9, 10⟩ with hI
  have hb : constructBasis (rectConf 3 1 1 1 1) = .ok [[0, 1, 2], [0, 2, 1], [1, 0, 2], [1, 2, 0], [2, 0, 1], [2, 1, 0]] := by decide +kernel
  obtain ⟨dets, H, a1, a2, _, _, _⟩ := C30_no_failure exEnv _ 3 1 1 hc hf (by decide) I hoppingOnly [] true
  obtain rfl := Except.ok.inj (a1.symm.trans hb)
  obtain ⟨H', g1, hd, _, _⟩ := buildHamiltonian_spec I (hc.tj exEnv) hf (by decide) a1 hoppingOnly [] true
  obtain rfl := Except.ok.inj (a2.symm.trans g1)
  have hel := C31_matrix_elements exEnv _ 3 1 1 hc hf (by decide) I hoppingOnly [] true _ a1 H a2
  have hd6 : H.dim = 6 := hd
  have hle : ∀ i j : Fin H.dim, H.toMatrix i j ≤ 0 := by
    intro i j
    show H.entry i j ≤ 0
    rw [hel i j (hd ▸ i.2) (hd ▸ j.2)]
    have : ∀ σ τ : Conf (rectConf 3 1 1 1 1).nsites, hamEl I (fun s => gridPos (3 * 1) s) hoppingOnly σ τ = hopEl I (fun s => gridPos (3 * 1) s) σ τ := by
      intro σ τ
      simp [hamEl, hoppingOnly]
    rw [this]
    exact hop_nonpos (by rw [hI]; norm_num) _ _
  have hlt : H.toMatrix ⟨0, by omega⟩ ⟨2, by omega⟩ < 0 := by
    show H.entry 0 2 < 0
    have e : conf (rectConf 3 1 1 1 1) [1, 0, 2] = exch (conf (rectConf 3 1 1 1 1) [0, 1, 2]) ⟨0, by decide⟩ ⟨1, by decide⟩ := by decide +kernel
    rw [hel 0 2 (by decide) (by decide)]
    show hamEl I (fun s => gridPos (3 * 1) s) hoppingOnly (conf _ [0, 1, 2]) (conf _ [1, 0, 2]) < 0
    rw [e, hamEl_exch I _ hoppingOnly rfl (by decide +kernel) (by decide +kernel) (by decide +kernel), hI]
    norm_num
  have hs : (0 : ℝ) < (√6)⁻¹ := by positivity
  have hsq : (√6)⁻¹ * (√6)⁻¹ = (1 / 6 : ℝ) := by
    rw [← mul_inv, Real.mul_self_sqrt (by norm_num)]
    norm_num
  have hg1 : (fun _ => (√6)⁻¹ : Fin H.dim → ℝ) ⬝ᵥ (fun _ => (√6)⁻¹) = 1 := by
    simp only [dotProduct, hsq, sum_const, card_univ, Fintype.card_fin, hd6]
    norm_num
  have hge : (fun _ => (√6)⁻¹ : Fin H.dim → ℝ) ⬝ᵥ (H.toMatrix *ᵥ (fun _ => (√6)⁻¹)) < 0 := by
    simp only [dotProduct, mulVec, mul_sum]
    refine sum2_neg (fun a b => ?_) ⟨0, by omega⟩ ⟨2, by omega⟩ ?_
    · exact mul_nonpos_of_nonneg_of_nonpos hs.le (mul_nonpos_of_nonpos_of_nonneg (hle a b) hs.le)
    · exact mul_neg_of_pos_of_neg hs (mul_neg_of_neg_of_pos hlt hs)
  obtain ⟨r, hr⟩ := C50_no_failure realLib realLib_qr realLib_rand H.toMatrix 1 (some [fun _ => (√6)⁻¹]) 7 (by omega) (1 / 1000) 0
    (by rw [if_pos rfl, hd6]; decide) (by
      intro g h
      rw [← Option.some.inj h, if_pos rfl, hd6]
      decide)
  refine ⟨_, H, r, a1, a2, hr, fun u hu => ⟨?_, ?_⟩⟩
  · exact (C141_lattice exEnv realLib realLib_sqrt realLib_eigh realLib_qr _ 3 1 1 hc hf (by decide) I hoppingOnly rfl rfl [] true _ a1 H a2
      (mirrorX 3) (LatSym.mirX LatSym.one) 1 _ (fun i j _ _ _ => by simp) hg1 hge 7 (1 / 1000) (by norm_num) 0 r hr).2 u hu
  · exact (C141_reversal exEnv realLib realLib_sqrt realLib_eigh realLib_qr _ 3 1 1 hc hf (by decide) I hoppingOnly rfl rfl [] true _ a1 H a2
      1 _ (fun i j _ _ _ => by simp) hg1 hge 7 (1 / 1000) (by norm_num) 0 r hr).2 u hu

/-- A subspace of dimension 1 in four dimensions and one requested state: the second search space of every run that does not converge at
once leaves it. -/
example (stp : Nat) (tol : ℝ) (r : DavidsonResult ℝ 4) (h : modifiedDavidson realLib exMat 1 (some [Pi.single 0 1]) stp tol 0 = .ok r)
    (h2 : 2 ≤ r.trace.length) : ∃ w ∈ r.trace[1], w ∉ Submodule.span ℝ {(Pi.single 0 1 : Fin 4 → ℝ)} :=
  C141_leaves realLib realLib_qr exMat _ 1 _ stp tol 0 r h h2 (by
    refine (finrank_span_le_card _).trans_lt ?_
    simp)

end TJ
