/-
Properties C44 and C75 (exact conditions), C136: when the lists of the determinants with the largest coefficients are right, and that for
a state that is not degenerate, with as many up as down spins, they never are.
-/
import Verif.Props.Symmetry
import Verif.Props.PostProcessing2
import Verif.Props.LiebMattis
import Mathlib.Data.ZMod.Basic

namespace TJ

open Finset

section
variable {K : Type} [Field K] [LinearOrder K] [IsStrictOrderedRing K]

/-- The moduli at the positions of the largest coefficients are the first ones of the decreasing list of all moduli. -/
theorem topPositions_moduli {v : List K} {k : Nat} {top : List Nat} (h : TopPositions v k top) :
    top.map (fun i => |v.getD i 0|) = (sortedDesc (v.map (fun x => |x|))).take k := by
  obtain ⟨h1, h2, h3, h4, h5⟩ := h
  let rest := (List.range v.length).filter (fun i => decide (i ∉ top))
  have hperm : (top ++ rest).Perm (List.range v.length) := by
    refine (List.perm_ext_iff_of_nodup ?_ List.nodup_range).2 ?_
    · refine h1.append (List.nodup_range.filter _) ?_
      intro i hi hj
      have := (List.mem_filter.1 hj).2
      simp only [decide_not, Bool.not_eq_eq_eq_not, Bool.not_true, decide_eq_false_iff_not] at this
      exact this hi
    · intro i
      simp only [List.mem_append, List.mem_range]
      constructor
      · rintro (hi | hi)
        · exact h3 i hi
        · exact List.mem_range.1 (List.mem_filter.1 hi).1
      · intro hi
        by_cases ht : i ∈ top
        · exact .inl ht
        · exact .inr (List.mem_filter.2 ⟨List.mem_range.2 hi, by simpa using ht⟩)
  have hall : (List.range v.length).map (fun i => |v.getD i 0|) = v.map (fun x => |x|) := by
    apply List.ext_getElem
    · simp
    · intro i h1 h2
      have : i < v.length := by simpa using h2
      simp [List.getD_eq_getElem?_getD, List.getElem?_eq_getElem this]
  have hrest : (sortedDesc (rest.map (fun i => |v.getD i 0|))).Perm (rest.map (fun i => |v.getD i 0|)) := sortedDesc_perm _
  have hp : (top.map (fun i => |v.getD i 0|) ++ sortedDesc (rest.map (fun i => |v.getD i 0|))).Perm (sortedDesc (v.map (fun x => |x|))) := by
    refine ((List.Perm.append_left _ hrest).trans ?_).trans (sortedDesc_perm _).symm
    rw [← List.map_append, ← hall]
    exact hperm.map _
  have hs : (top.map (fun i => |v.getD i 0|) ++ sortedDesc (rest.map (fun i => |v.getD i 0|))).Pairwise (fun x y => y ≤ x) := by
    refine List.pairwise_append.2 ⟨List.pairwise_map.2 h4, sortedDesc_sorted _, ?_⟩
    intro x hx y hy
    obtain ⟨i, hi, rfl⟩ := List.mem_map.1 hx
    obtain ⟨j, hj, rfl⟩ := List.mem_map.1 (hrest.mem_iff.1 hy)
    obtain ⟨g1, g2⟩ := List.mem_filter.1 hj
    exact h5 j (List.mem_range.1 g1) (by simpa using g2) i hi
  have he := hp.eq_of_pairwise (fun a b _ _ h h' => le_antisymm h' h) hs (sortedDesc_sorted _)
  have hl : (sortedDesc (v.map (fun x => |x|))).length = v.length := by rw [(sortedDesc_perm _).length_eq, List.length_map]
  have : (sortedDesc (v.map (fun x => |x|))).take k = (sortedDesc (v.map (fun x => |x|))).take (min k v.length) := by
    rw [← hl]; simp
  rw [this, ← he, ← h2, List.take_append_of_le_length (by simp), List.take_of_length_le (by simp)]

/-- Positions of first occurrences repeat nothing exactly when the values repeat nothing. -/
theorem nodup_idxOf {w s : List K} (hs : ∀ y ∈ s, y ∈ w) : (s.map (fun y => w.idxOf y)).Nodup ↔ s.Nodup := by
  refine ⟨List.Nodup.of_map _, fun h => h.map_on fun x hx y hy e => ?_⟩
  exact (List.idxOf_inj (hs x hx)).1 e

/-- C44. `get_dominant_determinants` returns the determinants with the largest coefficients exactly when these coefficients have
different moduli. -/
theorem C44_right_iff (c : Config) (dets : List (List Nat)) (hb : constructBasis c = .ok dets) (v : List K)
    (hv : v.length = dets.length) (k : Nat) :
    (∃ idx, dominantDeterminants c v k = .ok (idx.map (fun i => v.getD i 0), idx.map (fun i => dets.getD i [])) ∧
      TopPositions v k idx) ↔ ∀ top, TopPositions v k top → (top.map (fun i => |v.getD i 0|)).Nodup := by
  obtain ⟨idx, h1, h2, h3, h4⟩ := dominant_spec hb v hv k
  have hmem : ∀ y ∈ (sortedDesc (v.map (fun x => |x|))).take k, y ∈ v.map (fun x => |x|) := fun y hy =>
    (sortedDesc_perm _).mem_iff.1 (List.mem_of_mem_take hy)
  constructor
  · rintro ⟨idx', g1, g2⟩ top ht
    have e := congrArg Prod.snd (Except.ok.inj (h1.symm.trans g1))
    have e' : idx = idx' := by
      have hinj : ∀ i < dets.length, ∀ j < dets.length, dets.getD i [] = dets.getD j [] → i = j := by
        intro i hi j hj h
        rw [getD_dets hi, getD_dets hj] at h
        rw [constructBasis_eq] at hb
        obtain rfl := Except.ok.inj hb
        exact (nodup_basisList ..).getElem_inj_iff.1 h
      have hl : idx.length = idx'.length := by simpa using congrArg List.length e
      refine List.ext_getElem hl fun i hi hi' => ?_
      have := congrArg (fun l : List (List Nat) => l[i]?) e
      simp only [List.getElem?_map, List.getElem?_eq_getElem hi, List.getElem?_eq_getElem hi', Option.map_some,
        Option.some.injEq] at this
      exact hinj _ (by rw [← hv]; exact h2 _ (List.getElem_mem hi)) _ (by rw [← hv]; exact g2.2.2.1 _ (List.getElem_mem hi')) this
    rw [topPositions_moduli ht, ← nodup_idxOf hmem, ← h4, e']
    exact g2.1
  · intro h
    obtain ⟨_, top, _, _, _, ht, _⟩ := C44_moduli_partial c dets hb v hv k
    refine ⟨idx, h1, topPositions_of v _ (sortedDesc_perm _) (sortedDesc_sorted _) k idx ?_ h2 h3⟩
    rw [h4, nodup_idxOf hmem, ← topPositions_moduli ht]
    exact h top ht

/-- C75. The positions found for the determinants with the largest weights are right exactly when these weights are different. -/
theorem C75_right_iff (v : List K) (n : Nat) (hn : n ≤ v.length) :
    ∃ idx, highestsDet v n = .ok idx ∧ (TopPositions (v.map (fun x => |x| ^ 2)) n idx ↔
      ∀ top, TopPositions (v.map (fun x => |x| ^ 2)) n top → (top.map (fun i => |v.getD i 0|)).Nodup) := by
  obtain ⟨idx, top, h1, ht, _, h3, h4, _⟩ := C75_highest_partial v n hn
  set w := v.map (fun x => |x| ^ 2) with hw
  have habs : w.map (fun x => |x|) = w := by
    conv_rhs => rw [← List.map_id w]
    refine List.map_congr_left fun x hx => ?_
    obtain ⟨y, _, rfl⟩ := List.mem_map.1 hx
    exact abs_of_nonneg (by positivity)
  have hwabs : ∀ i, |w.getD i 0| = |v.getD i 0| ^ 2 := by
    intro i
    by_cases h : i < v.length
    · simp [hw, List.getD_eq_getElem?_getD, List.getElem?_eq_getElem h]
    · simp [hw, List.getD_eq_getElem?_getD, List.getElem?_eq_none (not_lt.1 h)]
  have hmem : ∀ y ∈ (sortedDesc w).take n, y ∈ w := fun y hy => (sortedDesc_perm _).mem_iff.1 (List.mem_of_mem_take hy)
  have hidx : idx = ((sortedDesc w).take n).map (fun y => w.idxOf y) := by
    refine Except.ok.inj (h1.symm.trans ?_)
    unfold highestsDet
    simp only [← hw, reverse_insertionSort]
    exact mapM_ok (fun y hy => by unfold pyIndex; rw [if_pos (hmem y hy)])
  have hmod : ∀ t, TopPositions w n t → t.map (fun i => |v.getD i 0| ^ 2) = (sortedDesc w).take n := by
    intro t h
    have := topPositions_moduli h
    rw [habs] at this
    rw [← this]
    exact List.map_congr_left fun i _ => (hwabs i).symm
  have hsq : ∀ t : List Nat, (t.map (fun i => |v.getD i 0|)).Nodup ↔ (t.map (fun i => |v.getD i 0| ^ 2)).Nodup := by
    intro t
    rw [show t.map (fun i => |v.getD i 0| ^ 2) = (t.map (fun i => |v.getD i 0|)).map (fun x => x ^ 2) by rw [List.map_map]; rfl]
    refine ⟨fun h => h.map_on fun x hx y hy e => ?_, List.Nodup.of_map _⟩
    obtain ⟨a, _, rfl⟩ := List.mem_map.1 hx
    obtain ⟨b, _, rfl⟩ := List.mem_map.1 hy
    exact (sq_eq_sq₀ (abs_nonneg _) (abs_nonneg _)).1 e
  refine ⟨idx, h1, fun h t h' => ?_, fun h => ?_⟩
  · rw [hsq, hmod t h', ← nodup_idxOf hmem, ← hidx]
    exact h.1
  · refine topPositions_of w _ (sortedDesc_perm _) (sortedDesc_sorted _) n idx ?_ (by rw [hw, List.length_map]; exact h4) ?_
    · rw [hidx, nodup_idxOf hmem, ← hmod top ht, ← hsq]
      exact h top ht
    · rw [habs, ← hmod top ht, ← h3]
      exact List.map_congr_left fun i _ => hwabs i

/-! ### C136 -/

/-- A map of the occupations that keeps the Hamiltonian and the sector keeps the moduli of a state that is not degenerate. -/
theorem simple_state (E : Env) (c : Config) (nbh nbv nb : Nat) (hc : RectConf c nbh nbv nb)
    (hf : c.Full) (hn : c.nholes + c.nbeta ≤ c.nsites) (I : Interactions K) (B : BoolInteractions) (r : List Nat) (vb : Bool)
    (dets : List (List Nat)) (hb : constructBasis c = .ok dets) (H : SpMat K) (hH : buildHamiltonian E c I dets B r vb = .ok H) (μ : K)
    (h1 : Module.finrank K (Module.End.eigenspace (Matrix.toLin' H.toMatrix) μ) = 1)
    (x : Fin H.dim → K) (hx : x ≠ 0) (hev : Matrix.mulVec H.toMatrix x = μ • x) (ec : Conf c.nsites ≃ Conf c.nsites)
    (hk : ∀ σ τ, hamEl I (fun s : Fin c.nsites => gridPos (nbh * nb) s) B (ec σ) (ec τ) =
      hamEl I (fun s : Fin c.nsites => gridPos (nbh * nb) s) B σ τ)
    (hcnt : ∀ σ, (ec σ).count .hole = c.nholes ∧ (ec σ).count .down = c.nbeta → σ.count .hole = c.nholes ∧ σ.count .down = c.nbeta)
    (σ : Conf c.nsites) : |amp c dets (List.ofFn x) (ec σ)| = |amp c dets (List.ofFn x) σ| := by
  obtain ⟨H', g1, hd, _, _⟩ := buildHamiltonian_spec I (hc.tj E) hf hn hb B r vb
  obtain rfl := Except.ok.inj (hH.symm.trans g1)
  have hel := C31_matrix_elements E c nbh nbv nb hc hf hn I B r vb dets hb H hH
  set φ : Conf c.nsites → K := amp c dets (List.ofFn x) with hφ
  have hop : ∀ σ, tjOp I (fun s : Fin c.nsites => gridPos (nbh * nb) s) B φ σ = μ * φ σ := by
    intro σ
    have := state_mulVec hb hn hd hel x
    rw [hev] at this
    have h2 := congrFun this σ
    have h3 := congrFun ((stateMap (K := K) hb hn hd).map_smul μ x) σ
    exact h2.symm.trans h3
  have hsec : InSector c.nholes c.nbeta φ := state_sector hb hn x
  have hφ0 : φ ≠ 0 := by
    intro h
    exact hx (stateMap_injective (K := K) hb hn hd (a₁ := x) (a₂ := 0) (by rw [LinearMap.map_zero]; exact h))
  rw [eigenspace_map hc hf hn hb hH] at h1
  let ψ : Conf c.nsites → K := fun σ => φ (ec σ)
  have m1 : φ ∈ sectorEig I (fun s : Fin c.nsites => gridPos (nbh * nb) s) B c.nholes c.nbeta μ := ⟨hsec, hop⟩
  have m2 : ψ ∈ sectorEig I (fun s : Fin c.nsites => gridPos (nbh * nb) s) B c.nholes c.nbeta μ := by
    refine ⟨fun σ hσ => hcnt σ (hsec _ hσ), fun σ => ?_⟩
    show _ = μ * φ (ec σ)
    rw [← hop]
    unfold tjOp
    symm
    rw [← Equiv.sum_comp ec]
    refine sum_congr rfl fun τ _ => ?_
    show hamEl I _ B (ec σ) (ec τ) * _ = _
    rw [hk]
  obtain ⟨a, ha⟩ : ∃ a : K, a • φ = ψ := by
    obtain ⟨w, _, hw⟩ := finrank_eq_one_iff'.1 h1
    obtain ⟨a1, e1⟩ := hw ⟨φ, m1⟩
    obtain ⟨a2, e2⟩ := hw ⟨ψ, m2⟩
    have e1 : a1 • (w : Conf c.nsites → K) = φ := congrArg Subtype.val e1
    have e2 : a2 • (w : Conf c.nsites → K) = ψ := congrArg Subtype.val e2
    have : a1 ≠ 0 := by
      rintro rfl
      exact hφ0 (by rw [← e1, zero_smul])
    exact ⟨a2 / a1, by rw [← e1, smul_smul, div_mul_cancel₀ _ this, e2]⟩
  have hnorm : ∑ σ, ψ σ * ψ σ = ∑ σ, φ σ * φ σ := Equiv.sum_comp ec (fun σ => φ σ * φ σ)
  have hpos : ∑ σ, φ σ * φ σ ≠ 0 := by
    intro h
    rw [sum_eq_zero_iff_of_nonneg fun σ _ => mul_self_nonneg _] at h
    exact hφ0 (funext fun σ => mul_self_eq_zero.1 (h σ (mem_univ _)))
  have ha2 : a * a = 1 := by
    have h2 : ∑ σ, ψ σ * ψ σ = a * a * ∑ σ, φ σ * φ σ := by
      rw [← ha, mul_sum]
      exact sum_congr rfl fun σ _ => by rw [Pi.smul_apply, smul_eq_mul]; ring
    rw [hnorm] at h2
    exact (mul_right_cancel₀ hpos (by rw [one_mul]; exact h2)).symm
  have : ψ σ * ψ σ = φ σ * φ σ := by
    rw [← ha, Pi.smul_apply, smul_eq_mul]
    linear_combination (φ σ * φ σ) * ha2
  exact abs_eq_abs.2 (mul_self_eq_mul_self_iff.1 this)

/-- The state has the same moduli after the reversal of all spins. -/
theorem simple_reversed (E : Env) (c : Config) (nbh nbv nb : Nat) (hc : RectConf c nbh nbv nb)
    (hf : c.Full) (hn : c.nholes + 2 * c.nbeta = c.nsites) (I : Interactions K) (B : BoolInteractions) (r : List Nat) (vb : Bool)
    (dets : List (List Nat)) (hb : constructBasis c = .ok dets) (H : SpMat K) (hH : buildHamiltonian E c I dets B r vb = .ok H) (μ : K)
    (h1 : Module.finrank K (Module.End.eigenspace (Matrix.toLin' H.toMatrix) μ) = 1)
    (x : Fin H.dim → K) (hx : x ≠ 0) (hev : Matrix.mulVec H.toMatrix x = μ • x) (σ : Conf c.nsites) :
    |amp c dets (List.ofFn x) σ.rev| = |amp c dets (List.ofFn x) σ| := by
  refine simple_state E c nbh nbv nb hc hf (by omega) I B r vb dets hb H hH μ h1 x hx hev revEquiv ?_ ?_ σ
  · intro σ τ
    exact hamEl_rev I _ B σ τ
  · intro σ hσ
    have h2 := count_rev σ
    have h3 := count_sum σ
    have h4 : σ.rev.count .hole = c.nholes ∧ σ.rev.count .down = c.nbeta := hσ
    omega

/-- C136. With as many up as down spins, the coefficients of a determinant and of the determinant with all spins reversed have the same
modulus in every state whose energy is not degenerate. -/
theorem C136_reversed (E : Env) (c c' : Config) (nbh nbv nb : Nat) (hc : RectConf c nbh nbv nb)
    (hf : c.Full) (hn : c.nholes + 2 * c.nbeta = c.nsites) (I : Interactions K) (B : BoolInteractions) (r : List Nat) (vb : Bool)
    (dets : List (List Nat)) (hb : constructBasis c = .ok dets) (H : SpMat K) (hH : buildHamiltonian E c I dets B r vb = .ok H) (μ : K)
    (h1 : Module.finrank K (Module.End.eigenspace (Matrix.toLin' H.toMatrix) μ) = 1)
    (x : Fin H.dim → K) (hev : Matrix.mulVec H.toMatrix x = μ • x)
    (i i' : Fin H.dim) (hi : i.1 < dets.length) (hi' : i'.1 < dets.length)
    (h : reverseSpins E.toSetSem c dets[i.1] = .ok (c', dets[i'.1])) : |x i'| = |x i| := by
  by_cases hx : x = 0
  · rw [hx]; rfl
  have hn' : c.nholes + c.nbeta ≤ c.nsites := by omega
  have vi := valid_getElem hb (List.getElem?_eq_getElem hi)
  rw [reverseSpins_eq _ hf hn' vi] at h
  obtain ⟨_, e1⟩ := Prod.mk.inj (Except.ok.inj h)
  have hfl : c.flip.nbeta = c.nbeta := by
    show c.nalpha.toNat = c.nbeta
    unfold Config.nalpha
    omega
  have key : conf c dets[i'.1] = (conf c dets[i.1]).rev := by
    rw [← e1]
    funext s
    have : occ c.nholes c.flip.nbeta (detOf c.nsites (fun s => (occC c dets[i.1] s).rev)) s = (occC c dets[i.1] s).rev :=
      occ_reverse hn' vi s.2
    rw [hfl] at this
    exact this
  have := simple_reversed E c nbh nbv nb hc hf hn I B r vb dets hb H hH μ h1 x hx hev (conf c dets[i.1])
  rw [← key, amp_conf hb _ hi', amp_conf hb _ hi] at this
  simpa [List.getD_eq_getElem?_getD] using this

/-- In a decreasing list of moduli that are exchanged in pairs, the neighbours 2m and 2m+1 are equal. -/
theorem sorted_pairs {v : List K} (g : Fin v.length → Fin v.length) (hgg : ∀ i, g (g i) = i) (hne : ∀ i, g i ≠ i)
    (hv : ∀ i, |v[(g i).1]| = |v[i.1]|) (m : Nat) (hm : 2 * m + 1 < v.length) :
    (sortedDesc (v.map (fun x => |x|)))[2 * m]? = (sortedDesc (v.map (fun x => |x|)))[2 * m + 1]? := by
  set s := sortedDesc (v.map (fun x => |x|)) with hs
  have hl : s.length = v.length := by rw [hs, (sortedDesc_perm _).length_eq, List.length_map]
  have hsort : s.Pairwise (fun x y => y ≤ x) := sortedDesc_sorted _
  rw [List.getElem?_eq_getElem (by omega), List.getElem?_eq_getElem (by omega)]
  by_contra hcon
  have hlt : s[2 * m + 1] < s[2 * m] :=
    lt_of_le_of_ne (List.pairwise_iff_getElem.1 hsort _ _ (by omega) (by omega) (by omega)) fun e => hcon (by rw [e])
  have h1 : s.countP (fun y => decide (s[2 * m] ≤ y)) = 2 * m + 1 := by
    generalize hy0 : s[2 * m] = y0 at hlt ⊢
    have hap : s.countP (fun y => decide (y0 ≤ y)) = (s.take (2 * m + 1)).countP (fun y => decide (y0 ≤ y)) +
        (s.drop (2 * m + 1)).countP (fun y => decide (y0 ≤ y)) := by
      rw [← List.countP_append, List.take_append_drop]
    rw [hap, List.countP_eq_length.2, List.countP_eq_zero.2]
    · rw [List.length_take, Nat.add_zero, min_eq_left (by omega)]
    · intro y hy
      obtain ⟨j, hj, rfl⟩ := List.mem_iff_getElem.1 hy
      rw [List.getElem_drop]
      rw [decide_eq_true_eq, not_le]
      refine lt_of_le_of_lt ?_ hlt
      rcases Nat.eq_zero_or_pos j with rfl | hj0
      · exact le_rfl
      · rw [List.length_drop] at hj
        exact List.pairwise_iff_getElem.1 hsort _ _ (by omega) (by omega) (by omega)
    · intro y hy
      obtain ⟨j, hj, rfl⟩ := List.mem_iff_getElem.1 hy
      rw [List.getElem_take, decide_eq_true_eq]
      rw [List.length_take] at hj
      rcases Nat.lt_or_ge j (2 * m) with hj0 | hj0
      · rw [← hy0]
        exact List.pairwise_iff_getElem.1 hsort _ _ (by omega) (by omega) hj0
      · have : j = 2 * m := by omega
        subst this
        exact hy0.ge
  have h2 : s.countP (fun y => decide (s[2 * m] ≤ y)) = (univ.filter (fun i : Fin v.length => s[2 * m] ≤ |v[i.1]|)).card := by
    rw [(sortedDesc_perm _).countP_eq]
    have : v.map (fun x => |x|) = (List.finRange v.length).map (fun i => |v[i.1]|) := by
      apply List.ext_getElem <;> simp
    rw [this, List.countP_map, List.countP_eq_length_filter]
    rfl
  have h3 : Even (univ.filter (fun i : Fin v.length => s[2 * m] ≤ |v[i.1]|)).card := by
    have : ∑ i ∈ univ.filter (fun i : Fin v.length => s[2 * m] ≤ |v[i.1]|), (1 : ZMod 2) = 0 := by
      refine sum_involution (fun i _ => g i) (fun i _ => by decide) (fun i _ _ => hne i) (fun i hi => ?_) (fun i _ => hgg i)
      have := (mem_filter.1 hi).2
      exact mem_filter.2 ⟨mem_univ _, by rw [hv]; exact this⟩
    rw [sum_const, nsmul_one] at this
    exact (ZMod.natCast_eq_zero_iff_even).1 this
  rw [← h2, h1] at h3
  obtain ⟨k, hk⟩ := h3
  omega

/-- Reversal of the spins exchanges the positions of the determinants in pairs, with coefficients of the same modulus. -/
theorem exists_pairs (E : Env) (c : Config) (nbh nbv nb : Nat) (hc : RectConf c nbh nbv nb)
    (hf : c.Full) (hn : c.nholes + 2 * c.nbeta = c.nsites) (h0 : 0 < c.nbeta) (I : Interactions K) (B : BoolInteractions) (r : List Nat)
    (vb : Bool) (dets : List (List Nat)) (hb : constructBasis c = .ok dets) (H : SpMat K) (hH : buildHamiltonian E c I dets B r vb = .ok H)
    (μ : K) (h1 : Module.finrank K (Module.End.eigenspace (Matrix.toLin' H.toMatrix) μ) = 1)
    (x : Fin H.dim → K) (hx : x ≠ 0) (hev : Matrix.mulVec H.toMatrix x = μ • x) (v : List K) (hv : v = List.ofFn x) :
    v.length = dets.length ∧ ∃ g : Fin v.length → Fin v.length, (∀ i, g (g i) = i) ∧ (∀ i, g i ≠ i) ∧ ∀ i, |v[(g i).1]| = |v[i.1]| := by
  have hn' : c.nholes + c.nbeta ≤ c.nsites := by omega
  obtain ⟨H', g1, hd, _, _⟩ := buildHamiltonian_spec I (hc.tj E) hf hn' hb B r vb
  obtain rfl := Except.ok.inj (hH.symm.trans g1)
  have hl : v.length = dets.length := by rw [hv, List.length_ofFn, hd]
  refine ⟨hl, ?_⟩
  have hcnt : ∀ i (hi : i < dets.length), (conf c dets[i]).count .hole = c.nholes ∧ (conf c dets[i]).count .down = c.nbeta := fun i hi =>
    ⟨count_conf_hole hn' (canonical_getElem hb i hi).1, count_conf_down hn' (canonical_getElem hb i hi).1⟩
  have hex : ∀ i : Fin v.length, ∃ k : Fin v.length, conf c (dets[k.1]'(hl ▸ k.2)) = (conf c (dets[i.1]'(hl ▸ i.2))).rev := by
    intro i
    have h2 := hcnt i.1 (hl ▸ i.2)
    have h3 := count_rev (conf c (dets[i.1]'(hl ▸ i.2)))
    have h4 := count_sum (conf c (dets[i.1]'(hl ▸ i.2)))
    obtain ⟨k, hk, hk2⟩ := exists_conf hb hn' (σ := (conf c (dets[i.1]'(hl ▸ i.2))).rev) (by omega) (by omega)
    exact ⟨⟨k, by omega⟩, hk2⟩
  choose g hg using hex
  refine ⟨g, fun i => ?_, fun i e => ?_, fun i => ?_⟩
  · refine Fin.ext (conf_inj hb (hl ▸ (g (g i)).2) (hl ▸ i.2) ?_)
    rw [hg, hg]
    funext s
    exact Occ.rev_rev _
  · have h2 := hg i
    rw [e] at h2
    have h3 := (hcnt i.1 (hl ▸ i.2)).2
    have : (univ.filter (fun s => conf c (dets[i.1]'(hl ▸ i.2)) s = .down)).Nonempty := by
      rw [← card_pos]
      exact lt_of_lt_of_eq h0 h3.symm
    obtain ⟨s, hs⟩ := this
    have hs := (mem_filter.1 hs).2
    have h4 := congrFun h2 s
    rw [show (conf c (dets[i.1]'(hl ▸ i.2))).rev s = (conf c (dets[i.1]'(hl ▸ i.2)) s).rev from rfl, hs] at h4
    cases h4
  · have h2 := simple_reversed E c nbh nbv nb hc hf hn I B r vb dets hb H hH μ h1 x hx hev (conf c (dets[i.1]'(hl ▸ i.2)))
    rw [← hg i, amp_conf hb _ (hl ▸ (g i).2), amp_conf hb _ (hl ▸ i.2), ← hv] at h2
    simpa [List.getD_eq_getElem?_getD] using h2

/-- C136. With as many up as down spins, and at least one of each, in a state whose energy is not degenerate, the determinants returned by
`get_dominant_determinants` come in equal pairs: the (2m+2)-th is again the (2m+1)-th, with the same coefficient. -/
theorem C136_pairs (E : Env) (c : Config) (nbh nbv nb : Nat) (hc : RectConf c nbh nbv nb)
    (hf : c.Full) (hn : c.nholes + 2 * c.nbeta = c.nsites) (h0 : 0 < c.nbeta) (I : Interactions K) (B : BoolInteractions) (r : List Nat)
    (vb : Bool) (dets : List (List Nat)) (hb : constructBasis c = .ok dets) (H : SpMat K) (hH : buildHamiltonian E c I dets B r vb = .ok H)
    (μ : K) (h1 : Module.finrank K (Module.End.eigenspace (Matrix.toLin' H.toMatrix) μ) = 1)
    (x : Fin H.dim → K) (hx : x ≠ 0) (hev : Matrix.mulVec H.toMatrix x = μ • x) (k : Nat) :
    ∃ cs ds, dominantDeterminants c (List.ofFn x) k = .ok (cs, ds) ∧ cs.length = min k dets.length ∧ ds.length = min k dets.length ∧
      ∀ m, 2 * m + 1 < min k dets.length → cs[2 * m + 1]? = cs[2 * m]? ∧ ds[2 * m + 1]? = ds[2 * m]? := by
  obtain ⟨hl, g, hg1, hg2, hg3⟩ := exists_pairs E c nbh nbv nb hc hf hn h0 I B r vb dets hb H hH μ h1 x hx hev _ rfl
  obtain ⟨idx, e1, _, _, e4⟩ := dominant_spec hb (List.ofFn x) hl k
  have hil : idx.length = min k dets.length := by
    rw [e4, List.length_map, List.length_take, (sortedDesc_perm _).length_eq, List.length_map, hl]
  refine ⟨_, _, e1, by rw [List.length_map, hil], by rw [List.length_map, hil], fun m hm => ?_⟩
  have hs := sorted_pairs g hg1 hg2 hg3 m (by omega)
  have hi : idx[2 * m + 1]? = idx[2 * m]? := by
    rw [e4, List.getElem?_map, List.getElem?_map, List.getElem?_take, List.getElem?_take, if_pos (by omega), if_pos (by omega), hs]
  rw [List.getElem?_map, List.getElem?_map, List.getElem?_map, List.getElem?_map, hi]
  exact ⟨rfl, rfl⟩

/-- C136. Such a list is never the list of the determinants with the largest coefficients, once two of them are asked for. -/
theorem C136_never_right (E : Env) (c : Config) (nbh nbv nb : Nat) (hc : RectConf c nbh nbv nb)
    (hf : c.Full) (hn : c.nholes + 2 * c.nbeta = c.nsites) (h0 : 0 < c.nbeta) (I : Interactions K) (B : BoolInteractions) (r : List Nat)
    (vb : Bool) (dets : List (List Nat)) (hb : constructBasis c = .ok dets) (H : SpMat K) (hH : buildHamiltonian E c I dets B r vb = .ok H)
    (μ : K) (h1 : Module.finrank K (Module.End.eigenspace (Matrix.toLin' H.toMatrix) μ) = 1)
    (x : Fin H.dim → K) (hx : x ≠ 0) (hev : Matrix.mulVec H.toMatrix x = μ • x) (k : Nat) (hk : 2 ≤ k) :
    ¬ ∃ idx, dominantDeterminants c (List.ofFn x) k =
        .ok (idx.map (fun i => (List.ofFn x).getD i 0), idx.map (fun i => dets.getD i [])) ∧ TopPositions (List.ofFn x) k idx := by
  obtain ⟨hl, g, hg1, hg2, hg3⟩ := exists_pairs E c nbh nbv nb hc hf hn h0 I B r vb dets hb H hH μ h1 x hx hev _ rfl
  have h2 : 2 ≤ (List.ofFn x).length := by
    have : 0 < (List.ofFn x).length := by
      by_contra h
      refine hx (funext fun i => ?_)
      have := i.2
      rw [List.length_ofFn] at h
      omega
    have h3 := hg2 ⟨0, this⟩
    have h4 := (g ⟨0, this⟩).2
    have h5 : (g ⟨0, this⟩).1 ≠ 0 := fun e => h3 (Fin.ext e)
    omega
  rw [C44_right_iff c dets hb _ hl k]
  intro h
  obtain ⟨_, top, _, _, _, ht, _⟩ := C44_moduli_partial c dets hb (List.ofFn x) hl k
  have h3 := h top ht
  rw [topPositions_moduli ht] at h3
  have hs := sorted_pairs g hg1 hg2 hg3 0 (by omega)
  have hsl : (sortedDesc ((List.ofFn x).map (fun x => |x|))).length = (List.ofFn x).length := by
    rw [(sortedDesc_perm _).length_eq, List.length_map]
  have hs' : ((sortedDesc ((List.ofFn x).map (fun x => |x|))).take k)[0]? = ((sortedDesc ((List.ofFn x).map (fun x => |x|))).take k)[1]? := by
    rw [List.getElem?_take, List.getElem?_take, if_pos (by omega), if_pos (by omega)]
    exact hs
  rw [List.getElem?_eq_getElem (by rw [List.length_take]; omega), List.getElem?_eq_getElem (by rw [List.length_take]; omega)] at hs'
  have h6 := h3.getElem_inj_iff.1 (Option.some.inj hs')
  omega

/-- C136. The same for the determinants of largest weight of the post-processing. -/
theorem C136_highest_pairs (E : Env) (c : Config) (nbh nbv nb : Nat) (hc : RectConf c nbh nbv nb)
    (hf : c.Full) (hn : c.nholes + 2 * c.nbeta = c.nsites) (h0 : 0 < c.nbeta) (I : Interactions K) (B : BoolInteractions) (r : List Nat)
    (vb : Bool) (dets : List (List Nat)) (hb : constructBasis c = .ok dets) (H : SpMat K) (hH : buildHamiltonian E c I dets B r vb = .ok H)
    (μ : K) (h1 : Module.finrank K (Module.End.eigenspace (Matrix.toLin' H.toMatrix) μ) = 1)
    (x : Fin H.dim → K) (hx : x ≠ 0) (hev : Matrix.mulVec H.toMatrix x = μ • x) (n : Nat) (hle : n ≤ dets.length) :
    ∃ idx, highestsDet (List.ofFn x) n = .ok idx ∧ idx.length = n ∧ ∀ m, 2 * m + 1 < n → idx[2 * m + 1]? = idx[2 * m]? := by
  obtain ⟨hl, g, hg1, hg2, hg3⟩ := exists_pairs E c nbh nbv nb hc hf hn h0 I B r vb dets hb H hH μ h1 x hx hev _ rfl
  set w := (List.ofFn x).map (fun x => |x| ^ 2) with hw
  have habs : w.map (fun x => |x|) = w := by
    conv_rhs => rw [← List.map_id w]
    refine List.map_congr_left fun x hx => ?_
    obtain ⟨y, _, rfl⟩ := List.mem_map.1 hx
    exact abs_of_nonneg (by positivity)
  have hmem : ∀ y ∈ (sortedDesc w).take n, y ∈ w := fun y hy => (sortedDesc_perm _).mem_iff.1 (List.mem_of_mem_take hy)
  have hwl : w.length = (List.ofFn x).length := by rw [hw, List.length_map]
  refine ⟨((sortedDesc w).take n).map (fun y => w.idxOf y), ?_, ?_, ?_⟩
  · unfold highestsDet
    simp only [← hw, reverse_insertionSort]
    exact mapM_ok (fun y hy => by unfold pyIndex; rw [if_pos (hmem y hy)])
  · rw [List.length_map, List.length_take, (sortedDesc_perm _).length_eq]
    omega
  · intro m hm
    have hs := sorted_pairs (v := w) (fun i => ⟨(g ⟨i.1, hwl ▸ i.2⟩).1, lt_of_lt_of_eq (g _).2 hwl.symm⟩) (fun i => Fin.ext (by
        show (g (g _)).1 = _
        rw [hg1])) (fun i e => hg2 ⟨i.1, hwl ▸ i.2⟩ (Fin.ext (congrArg Fin.val e :))) (fun i => by
        have := hg3 ⟨i.1, hwl ▸ i.2⟩
        simp only [hw, List.getElem_map] at this ⊢
        rw [this]) m (by omega)
    rw [habs] at hs
    rw [List.getElem?_map, List.getElem?_map, List.getElem?_take, List.getElem?_take, if_pos (by omega), if_pos (by omega), hs]

end

/-- C136. No hole, as many up as down spins, antiferromagnetic coupling, any rectangle of at least two sites: the lowest state is unique
(`C109_unique`), so that the two first determinants reported for it are the same one, and the report is never right. -/
theorem C136_antiferromagnet (E : Env) (c : Config) (nbh nbv nb : Nat) (hc : RectConf c nbh nbv nb) (hf : c.Full) (h0 : c.nholes = 0)
    (hn : 2 * c.nbeta = c.nsites) (hpos : 0 < c.nbeta) (I : Interactions ℝ) (hJ : 0 < I.J) (B : BoolInteractions) (hij : B.bij = true)
    (r : List Nat) (vb : Bool) (dets : List (List Nat)) (hb : constructBasis c = .ok dets) (H : SpMat ℝ)
    (hH : buildHamiltonian E c I dets B r vb = .ok H) (e : ℝ) (he : IsLeast {μ | Module.End.HasEigenvalue (Matrix.toLin' H.toMatrix) μ} e)
    (x : Fin H.dim → ℝ) (hx : x ≠ 0) (hev : Matrix.mulVec H.toMatrix x = e • x) (k : Nat) (hk : 2 ≤ k) :
    (∃ cs ds, dominantDeterminants c (List.ofFn x) k = .ok (cs, ds) ∧ ds[1]? = ds[0]? ∧ cs[1]? = cs[0]?) ∧
    ¬ ∃ idx, dominantDeterminants c (List.ofFn x) k =
        .ok (idx.map (fun i => (List.ofFn x).getD i 0), idx.map (fun i => dets.getD i [])) ∧ TopPositions (List.ofFn x) k idx := by
  obtain ⟨e', he', h1⟩ := C109_unique E c nbh nbv nb hc hf h0 (by omega) I hJ B hij r vb dets hb H hH
  obtain rfl := he.unique he'
  refine ⟨?_, C136_never_right E c nbh nbv nb hc hf (by omega) hpos I B r vb dets hb H hH e h1 x hx hev k hk⟩
  obtain ⟨cs, ds, g1, g2, g3, g4⟩ := C136_pairs E c nbh nbv nb hc hf (by omega) hpos I B r vb dets hb H hH e h1 x hx hev k
  by_cases h : 1 < min k dets.length
  · exact ⟨cs, ds, g1, (g4 0 h).2, (g4 0 h).1⟩
  · have hl := (exists_pairs E c nbh nbv nb hc hf (by omega) hpos I B r vb dets hb H hH e h1 x hx hev _ rfl)
    exfalso
    obtain ⟨l1, g, _, l2, _⟩ := hl
    have : 0 < (List.ofFn x).length := by
      by_contra h
      refine hx (funext fun i => ?_)
      have := i.2
      rw [List.length_ofFn] at h
      omega
    have h4 := (g ⟨0, this⟩).2
    have h5 : (g ⟨0, this⟩).1 ≠ 0 := fun e => l2 ⟨0, this⟩ (Fin.ext e)
    omega

/-- The two spins of a pair: the lowest state of the 2 x 1 lattice has the coefficients 1 and -1. -/
example : constructBasis (rectConf 2 1 1 0 1) = .ok [[0, 1], [1, 0]] ∧
    dominantDeterminants (rectConf 2 1 1 0 1) [(1 : ℚ), -1] 2 = .ok ([1, 1], [[0, 1], [0, 1]]) ∧
    highestsDet [(1 : ℚ), -1] 2 = .ok [0, 0] ∧
    reverseSpins exEnv.toSetSem (rectConf 2 1 1 0 1) [0, 1] = .ok (rectConf 2 1 1 0 1, [1, 0]) := by
  refine ⟨by decide +kernel, by decide +kernel, by decide +kernel, by rfl⟩

/-- Six sites, three up and three down spins: the hypotheses of `C136_antiferromagnet`. -/
example := fun (dets : List (List Nat)) (hb : constructBasis (rectConf 3 2 1 0 3) = .ok dets) (H : SpMat ℝ) =>
  C136_antiferromagnet exEnv (rectConf 3 2 1 0 3) 3 2 1 (rectConf_ok 3 2 1 0 3 (by decide) (by decide) (by decide))
    (by unfold Config.Full; decide +kernel) rfl rfl (by decide) ⟨0, 1, 0, 0, 0, 0, 0, 0, 0, 0⟩ (by norm_num)
    ⟨true, true, true, true, true, true⟩ rfl [] false dets hb H

/-- Coefficients of different moduli among the two largest, but not among all. -/
example : ∃ idx, highestsDet [(1 : ℚ), -3, 2, 1] 2 = .ok idx ∧ TopPositions ([(1 : ℚ), -3, 2, 1].map (fun x => |x| ^ 2)) 2 idx := by
  refine ⟨[1, 2], by decide +kernel, by decide, by decide, by decide, by decide +kernel, by decide +kernel⟩

end TJ
