/-
Property C98: the symmetries of the rectangle (mirrors, quarter turns) are symmetries of the Hamiltonian and of the densities of
non-degenerate states.
-/
import Verif.Spec.Symmetry
import Verif.Props.Multiplets
import Verif.Props.Plots

namespace TJ

open Finset

/-- Inside a `W x H` rectangle. -/
def Box (W H : Nat) (p : Pt) : Prop := 0 ≤ p.1 ∧ p.1 < W ∧ 0 ≤ p.2 ∧ p.2 < H

/-- What is kept by a symmetry. -/
structure Keeps (W H : Nat) (f : Pt → Pt) : Prop where
  box : ∀ p, Box W H p → Box W H (f p)
  near : ∀ p q, Near (f p) (f q) ↔ Near p q
  aligned : ∀ p q r, Aligned (f p) (f q) (f r) ↔ Aligned p q r
  line : ∀ p q, ((f p).1 = (f q).1 ∨ (f p).2 = (f q).2) ↔ (p.1 = q.1 ∨ p.2 = q.2)
  diag : ∀ p q, Diagonal (f p) (f q) ↔ Diagonal p q
  inj : ∀ p q, f p = f q → p = q

theorem Keeps.comp {W H : Nat} {f g : Pt → Pt} (hg : Keeps W H g) (hf : Keeps W H f) : Keeps W H (g ∘ f) where
  box p h := hg.box _ (hf.box p h)
  near p q := (hg.near _ _).trans (hf.near _ _)
  aligned p q r := (hg.aligned _ _ _).trans (hf.aligned _ _ _)
  line p q := (hg.line _ _).trans (hf.line _ _)
  diag p q := (hg.diag _ _).trans (hf.diag _ _)
  inj p q h := hf.inj _ _ (hg.inj _ _ h)

theorem keeps_mirrorX (W H : Nat) : Keeps W H (mirrorX W) where
  box p h := by unfold Box mirrorX at *; dsimp only; omega
  near p q := by unfold Near mirrorX; dsimp only; omega
  aligned p q r := by unfold Aligned mirrorX; dsimp only; omega
  line p q := by unfold mirrorX; dsimp only; omega
  diag p q := by unfold Diagonal mirrorX; dsimp only; omega
  inj p q h := by
    have h1 := congrArg Prod.fst h
    have h2 := congrArg Prod.snd h
    simp only [mirrorX] at h1 h2
    exact Prod.ext (by omega) h2

theorem keeps_mirrorY (W H : Nat) : Keeps W H (mirrorY H) where
  box p h := by unfold Box mirrorY at *; dsimp only; omega
  near p q := by unfold Near mirrorY; dsimp only; omega
  aligned p q r := by unfold Aligned mirrorY; dsimp only; omega
  line p q := by unfold mirrorY; dsimp only; omega
  diag p q := by unfold Diagonal mirrorY; dsimp only; omega
  inj p q h := by
    have h1 := congrArg Prod.fst h
    have h2 := congrArg Prod.snd h
    simp only [mirrorY] at h1 h2
    exact Prod.ext h1 (by omega)

theorem keeps_turn (L : Nat) : Keeps L L (turn L) where
  box p h := inBox_turn h
  near := near_turn L
  aligned := aligned_turn L
  line := sameLine_turn L
  diag := diagonal_turn L
  inj p q h := (turn L).injective h

theorem LatSym.keeps {W H : Nat} {f : Pt → Pt} (hf : LatSym W H f) : Keeps W H f := by
  induction hf with
  | one => exact ⟨fun _ h => h, fun _ _ => Iff.rfl, fun _ _ _ => Iff.rfl, fun _ _ => Iff.rfl, fun _ _ => Iff.rfl, fun _ _ h => h⟩
  | mirX _ ih => exact (keeps_mirrorX W H).comp ih
  | mirY _ ih => exact (keeps_mirrorY W H).comp ih
  | quarter h _ ih => subst h; exact (keeps_turn W).comp ih

theorem box_gridPos {W H s : Nat} (hs : s < W * H) : Box W H (gridPos W s) := by
  have hw : 0 < W := Nat.pos_of_ne_zero fun h => by rw [h, Nat.zero_mul] at hs; omega
  have h1 := Nat.mod_lt s hw
  have h2 := Nat.div_lt_of_lt_mul hs
  unfold Box gridPos
  dsimp only
  generalize s % W = a at *
  generalize s / W = b at *
  omega

theorem exists_site {W H : Nat} {p : Pt} (h : Box W H p) : ∃ s, s < W * H ∧ gridPos W s = p := by
  obtain ⟨x, y⟩ := p
  obtain ⟨h1, h2, h3, h4⟩ := h
  dsimp only at h1 h2 h3 h4
  obtain ⟨a, rfl⟩ := Int.eq_ofNat_of_zero_le h1
  obtain ⟨b, rfl⟩ := Int.eq_ofNat_of_zero_le h3
  have h2 : a < W := by exact_mod_cast h2
  have h4 : b < H := by exact_mod_cast h4
  refine ⟨b * W + a, ?_, ?_⟩
  · calc b * W + a < b * W + W := by omega
      _ = (b + 1) * W := by ring
      _ ≤ H * W := Nat.mul_le_mul_right _ h4
      _ = W * H := Nat.mul_comm _ _
  · unfold gridPos
    rw [Nat.mul_comm b W, Nat.mul_add_mod, Nat.mod_eq_of_lt h2, Nat.mul_add_div (by omega), Nat.div_eq_of_lt h2, Nat.add_zero]

/-- A symmetry as a permutation of the sites. -/
theorem exists_perm {W H n : Nat} (hn : n = W * H) {f : Pt → Pt} (hf : Keeps W H f) :
    ∃ e : Fin n ≃ Fin n, ∀ s, gridPos W (e s) = f (gridPos W s) := by
  have h : ∀ s : Fin n, ∃ t : Fin n, gridPos W t = f (gridPos W s) := by
    intro s
    obtain ⟨t, ht, h⟩ := exists_site (hf.box _ (box_gridPos (W := W) (H := H) (s := s) (by rw [← hn]; exact s.2)))
    exact ⟨⟨t, by rw [hn]; exact ht⟩, h⟩
  choose g hg using h
  have hi : Function.Injective g := by
    intro s t h
    have h1 : f (gridPos W s) = f (gridPos W t) := by rw [← hg, ← hg, h]
    exact Fin.ext (gridPos_inj (hf.inj _ _ h1))
  exact ⟨Equiv.ofBijective g (Finite.injective_iff_bijective.1 hi), hg⟩

theorem movedBy_iff {W n : Nat} {f : Pt → Pt} {e : Fin n ≃ Fin n} (he : ∀ s, gridPos W (e s) = f (gridPos W s)) (σ τ : Conf n) :
    MovedBy W f σ τ ↔ σ = fun s => τ (e s) := by
  constructor
  · intro h
    funext s
    exact (h s (e s) (he s)).symm
  · rintro rfl s t h
    rw [← he] at h
    rw [Fin.ext (gridPos_inj h)]

section
variable {K : Type} [Field K]

theorem hamEl_keeps {W H n : Nat} {f : Pt → Pt} (hf : Keeps W H f) (I : Interactions K) (B : BoolInteractions)
    {e : Fin n ≃ Fin n} (he : ∀ s, gridPos W (e s) = f (gridPos W s)) (σ τ : Conf n) :
    hamEl I (fun s : Fin n => gridPos W s) B (fun s => σ (e s)) (fun s => τ (e s)) = hamEl I (fun s : Fin n => gridPos W s) B σ τ := by
  apply hamEl_perm
  · intro a b; rw [he, he, hf.near]
  · intro a b d; rw [he, he, he, hf.aligned]
  · intro a b; rw [he, he, hf.line]
  · intro a b; rw [he, he, hf.diag]

/-- C98. Matrix elements between determinants moved by a symmetry of the rectangle are equal. -/
theorem C98_hamiltonian (E : Env) (c : Config) (nbh nbv nb : Nat) (hc : RectConf c nbh nbv nb)
    (hf : c.Full) (hn : c.nholes + c.nbeta ≤ c.nsites) (I : Interactions K) (B : BoolInteractions) (r : List Nat) (vb : Bool)
    (dets : List (List Nat)) (hb : constructBasis c = .ok dets) (H : SpMat K) (hH : buildHamiltonian E c I dets B r vb = .ok H)
    (f : Pt → Pt) (hs : LatSym (nbh * nb) (nbv * nb) f)
    (i j i' j' : Nat) (hi : i < dets.length) (hj : j < dets.length) (hi' : i' < dets.length) (hj' : j' < dets.length)
    (h1 : MovedBy (nbh * nb) f (conf c dets[i]) (conf c dets[i'])) (h2 : MovedBy (nbh * nb) f (conf c dets[j]) (conf c dets[j'])) :
    H.entry i' j' = H.entry i j := by
  obtain ⟨e, he⟩ := exists_perm (n := c.nsites) hc.spec.1 hs.keeps
  rw [C31_matrix_elements E c nbh nbv nb hc hf hn I B r vb dets hb H hH i j hi hj,
    C31_matrix_elements E c nbh nbv nb hc hf hn I B r vb dets hb H hH i' j' hi' hj',
    (movedBy_iff he _ _).1 h1, (movedBy_iff he _ _).1 h2]
  exact (hamEl_keeps hs.keeps I B he _ _).symm

/-- C98. Every determinant of the basis is moved by a symmetry to exactly one determinant of the basis. -/
theorem C98_moved_exists (c : Config) (nbh nbv nb : Nat) (hc : RectConf c nbh nbv nb) (hn : c.nholes + c.nbeta ≤ c.nsites)
    (dets : List (List Nat)) (hb : constructBasis c = .ok dets) (f : Pt → Pt) (hs : LatSym (nbh * nb) (nbv * nb) f)
    (i : Nat) (hi : i < dets.length) :
    ∃! i' : Fin dets.length, MovedBy (nbh * nb) f (conf c dets[i]) (conf c dets[i'.1]) := by
  obtain ⟨e, he⟩ := exists_perm (n := c.nsites) hc.spec.1 hs.keeps
  have hcan := canonical_getElem hb i hi
  have hcnt := And.intro (count_conf_hole hn hcan.1) (count_conf_down hn hcan.1)
  obtain ⟨k, hk, hk2⟩ := exists_conf hb hn (σ := fun s => conf c dets[i] (e.symm s))
    ((count_comp _ e.symm .hole).trans hcnt.1) ((count_comp _ e.symm .down).trans hcnt.2)
  refine ⟨⟨k, hk⟩, ?_, ?_⟩
  · show MovedBy _ _ _ (conf c dets[k])
    rw [movedBy_iff he, hk2]
    funext s
    simp
  · rintro ⟨k', hk'⟩ h
    have h : MovedBy _ _ _ (conf c dets[k']) := h
    rw [movedBy_iff he] at h
    refine Fin.ext (conf_inj hb hk' hk ?_)
    rw [hk2, h]
    funext s
    simp

end

section
variable {K : Type} [Field K] [LinearOrder K] [IsStrictOrderedRing K]

/-- C98. A state whose energy is not degenerate has the same densities on sites that correspond by a symmetry of the rectangle. -/
theorem C98_density (E : Env) (c : Config) (nbh nbv nb : Nat) (hc : RectConf c nbh nbv nb)
    (hf : c.Full) (hn : c.nholes + c.nbeta ≤ c.nsites) (I : Interactions K) (B : BoolInteractions) (r : List Nat) (vb : Bool)
    (dets : List (List Nat)) (hb : constructBasis c = .ok dets) (H : SpMat K) (hH : buildHamiltonian E c I dets B r vb = .ok H)
    (f : Pt → Pt) (hs : LatSym (nbh * nb) (nbv * nb) f) (μ : K)
    (h1 : Module.finrank K (Module.End.eigenspace (Matrix.toLin' H.toMatrix) μ) = 1)
    (x : Fin H.dim → K) (hx : x ≠ 0) (hev : Matrix.mulVec H.toMatrix x = μ • x)
    (s t : Fin c.nsites) (hst : gridPos (nbh * nb) t = f (gridPos (nbh * nb) s)) (o : Occ) :
    born (amp c dets (List.ofFn x)) t o = born (amp c dets (List.ofFn x)) s o := by
  obtain ⟨e, he⟩ := exists_perm (n := c.nsites) hc.spec.1 hs.keeps
  have hes : e s = t := Fin.ext (gridPos_inj ((he s).trans hst.symm))
  obtain ⟨H', g1, hd, _, _⟩ := buildHamiltonian_spec I (hc.tj E) hf hn hb B r vb
  obtain rfl := Except.ok.inj (hH.symm.trans g1)
  have hel := C31_matrix_elements E c nbh nbv nb hc hf hn I B r vb dets hb H hH
  set φ : Conf c.nsites → K := amp c dets (List.ofFn x) with hφ
  have hop : ∀ σ, tjOp I (fun s : Fin c.nsites => gridPos (nbh * nb) s) B φ σ = μ * φ σ := by
    intro σ
    have := state_mulVec hb hn hd hel x
    rw [hev] at this
    have h2 := congrFun this σ
    have h3 := congrFun ((stateMap (K := K) hb hn hd).map_smul μ x) σ
    exact h2.symm.trans h3
  have hsec : InSector c.nholes c.nbeta φ := state_sector hb hn x
  have hφ0 : φ ≠ 0 := by
    intro h
    exact hx (stateMap_injective (K := K) hb hn hd (a₁ := x) (a₂ := 0) (by rw [LinearMap.map_zero]; exact h))
  rw [eigenspace_map hc hf hn hb hH] at h1
  let ec : Conf c.nsites ≃ Conf c.nsites := Equiv.arrowCongr e.symm (Equiv.refl Occ)
  have hec : ∀ σ, ec σ = fun s => σ (e s) := fun σ => rfl
  let ψ : Conf c.nsites → K := fun σ => φ (ec σ)
  have m1 : φ ∈ sectorEig I (fun s : Fin c.nsites => gridPos (nbh * nb) s) B c.nholes c.nbeta μ := ⟨hsec, hop⟩
  have m2 : ψ ∈ sectorEig I (fun s : Fin c.nsites => gridPos (nbh * nb) s) B c.nholes c.nbeta μ := by
    refine ⟨fun σ hσ => ?_, fun σ => ?_⟩
    · have := hsec _ hσ
      rwa [hec, count_comp, count_comp] at this
    · show _ = μ * φ (ec σ)
      rw [← hop]
      unfold tjOp
      symm
      rw [← Equiv.sum_comp ec]
      refine sum_congr rfl fun τ _ => ?_
      show hamEl I _ B (fun s => σ (e s)) (fun s => τ (e s)) * _ = _
      rw [hamEl_keeps hs.keeps I B he]
  obtain ⟨a, ha⟩ : ∃ a : K, a • φ = ψ := by
    obtain ⟨w, _, hw⟩ := finrank_eq_one_iff'.1 h1
    obtain ⟨a1, e1⟩ := hw ⟨φ, m1⟩
    obtain ⟨a2, e2⟩ := hw ⟨ψ, m2⟩
    have e1 : a1 • (w : Conf c.nsites → K) = φ := congrArg Subtype.val e1
    have e2 : a2 • (w : Conf c.nsites → K) = ψ := congrArg Subtype.val e2
    have : a1 ≠ 0 := by
      rintro rfl
      exact hφ0 (by rw [← e1, zero_smul])
    exact ⟨a2 / a1, by rw [← e1, smul_smul, div_mul_cancel₀ _ this, e2]⟩
  have hnorm : ∑ σ, ψ σ * ψ σ = ∑ σ, φ σ * φ σ := Equiv.sum_comp ec (fun σ => φ σ * φ σ)
  have hpos : ∑ σ, φ σ * φ σ ≠ 0 := by
    intro h
    rw [sum_eq_zero_iff_of_nonneg fun σ _ => mul_self_nonneg _] at h
    exact hφ0 (funext fun σ => mul_self_eq_zero.1 (h σ (mem_univ _)))
  have ha2 : a * a = 1 := by
    have h2 : ∑ σ, ψ σ * ψ σ = a * a * ∑ σ, φ σ * φ σ := by
      rw [← ha, mul_sum]
      exact sum_congr rfl fun σ _ => by rw [Pi.smul_apply, smul_eq_mul]; ring
    rw [hnorm] at h2
    exact (mul_right_cancel₀ hpos (by rw [one_mul]; exact h2)).symm
  have hsq : ∀ σ, ψ σ * ψ σ = φ σ * φ σ := by
    intro σ
    rw [← ha, Pi.smul_apply, smul_eq_mul]
    linear_combination (φ σ * φ σ) * ha2
  unfold born
  congr 1
  symm
  rw [← Equiv.sum_comp ec]
  refine sum_congr rfl fun σ _ => ?_
  show (if σ (e s) = o then ψ σ * ψ σ else 0) = _
  rw [hes, hsq]

/-- C94, part: the picture of a normalised state whose energy is not degenerate shows at (x, y) the probability of the site (x, y), because
such a state looks the same upside down. Missing: degenerate states (`C94_flipped`, `C94_upside_down`). -/
theorem C94_simple_partial (E : Env) (c : Config) (hc : RectConf c c.nbh c.nbv c.nblocs)
    (hf : c.Full) (hn : c.nholes + c.nbeta ≤ c.nsites) (I : Interactions K) (B : BoolInteractions) (r : List Nat) (vb : Bool)
    (dets : List (List Nat)) (hb : constructBasis c = .ok dets) (H : SpMat K) (hH : buildHamiltonian E c I dets B r vb = .ok H) (μ : K)
    (h1 : Module.finrank K (Module.End.eigenspace (Matrix.toLin' H.toMatrix) μ) = 1)
    (x : Fin H.dim → K) (hev : Matrix.mulVec H.toMatrix x = μ • x) (hnorm : vdot (List.ofFn x) (List.ofFn x) = 1) (o : Occ) :
    ∃ A, probabilityRectangular c dets (List.ofFn x) o.twice = .ok A ∧ A.rows = c.nbv * c.nblocs ∧ A.cols = c.nbh * c.nblocs ∧
      ∀ i j, i < c.nbh * c.nblocs → j < c.nbv * c.nblocs → ∀ s : Fin c.nsites, gridPos (c.nbh * c.nblocs) s = ((i : Int), (j : Int)) →
        A.drawnAt i j = born (amp c dets (List.ofFn x)) s o := by
  obtain ⟨H', g1, hd, _, _⟩ := buildHamiltonian_spec I (hc.tj E) hf hn hb B r vb
  obtain rfl := Except.ok.inj (hH.symm.trans g1)
  have hx : x ≠ 0 := by
    rintro rfl
    have : vdot (List.ofFn (0 : Fin H.dim → K)) (List.ofFn (0 : Fin H.dim → K)) = 0 := by
      rw [show List.ofFn (0 : Fin H.dim → K) = List.replicate H.dim 0 from List.ofFn_const ..]
      simp [vdot]
    exact zero_ne_one (this.symm.trans hnorm)
  obtain ⟨A, a1, a2, a3, a4⟩ := C94_flipped c hc dets hb hn (List.ofFn x) (by rw [List.length_ofFn, hd]) o
  refine ⟨A, a1, a2, a3, ?_⟩
  intro i j hi hj s hs
  obtain ⟨t, ht, ht2⟩ := exists_site (W := c.nbh * c.nblocs) (H := c.nbv * c.nblocs)
    (p := ((i : Int), ((c.nbv * c.nblocs - 1 - j : Nat) : Int))) (by unfold Box; dsimp only; omega)
  have ht : t < c.nsites := by rw [hc.spec.1]; exact ht
  rw [a4 i j hj ⟨t, ht⟩ ht2 hi, hnorm, div_one]
  refine C98_density E c c.nbh c.nbv c.nblocs hc hf hn I B r vb dets hb H hH _ (LatSym.mirY LatSym.one) μ h1 x hx hev s ⟨t, ht⟩ ?_ o
  show gridPos (c.nbh * c.nblocs) t = mirrorY _ (gridPos (c.nbh * c.nblocs) s)
  rw [ht2, hs]
  unfold mirrorY
  refine Prod.ext rfl ?_
  dsimp only
  omega

end

/-- One hole and one electron on two sites in a column: the even combination is the only state with energy `t`. -/
example : ∃ H : SpMat ℚ, constructBasis (rectConf 1 2 1 1 0) = .ok [[0, 1], [1, 0]] ∧
    buildHamiltonian exEnv (rectConf 1 2 1 1 0) exI [[0, 1], [1, 0]] ⟨true, false, false, false, false, false⟩ = .ok H ∧
    Module.finrank ℚ (Module.End.eigenspace (Matrix.toLin' H.toMatrix) exI.t) = 1 := by
  refine ⟨⟨2, [(1, 0, 1), (1, 1, 0)]⟩, by decide +kernel, by rfl, ?_⟩
  have key : ∀ x : Fin 2 → ℚ, x ∈ Module.End.eigenspace (Matrix.toLin' (SpMat.toMatrix ⟨2, [((1 : ℚ), 0, 1), (1, 1, 0)]⟩)) exI.t ↔ x 1 = x 0 := by
    intro x
    rw [Module.End.mem_eigenspace_iff, Matrix.toLin'_apply]
    have e : ∀ i j : Fin 2, SpMat.toMatrix ⟨2, [((1 : ℚ), 0, 1), (1, 1, 0)]⟩ i j = if i = j then 0 else 1 := by
      have : ∀ i j : Fin 2, SpMat.entry ⟨2, [((1 : ℚ), 0, 1), (1, 1, 0)]⟩ i j = if i = j then 0 else 1 := by decide +kernel
      exact this
    have h0 : Matrix.mulVec (SpMat.toMatrix ⟨2, [((1 : ℚ), 0, 1), (1, 1, 0)]⟩) x = ![x 1, x 0] := by
      funext i
      rw [Matrix.mulVec, dotProduct]
      show ∑ j : Fin 2, _ = _
      rw [Fin.sum_univ_two, e, e]
      fin_cases i <;> simp
    rw [h0]
    constructor
    · intro h
      have := congrFun h 0
      simpa [exI] using this
    · intro h
      funext i
      fin_cases i <;> simp [exI, h]
  refine finrank_eq_one_iff'.2 ⟨⟨fun _ => 1, (key _).2 rfl⟩, ?_, ?_⟩
  · intro h
    have := congrFun (congrArg Subtype.val h) (0 : Fin 2)
    exact one_ne_zero this
  · rintro ⟨x, hx⟩
    refine ⟨x (0 : Fin 2), Subtype.ext ?_⟩
    have := (key x).1 hx
    funext i
    show x (0 : Fin 2) * 1 = x i
    revert i
    show ∀ i : Fin 2, _
    intro i
    fin_cases i
    · simp
    · simpa using this.symm

/-- The mirror exchanges the two sites of a column. -/
example : MovedBy (n := 2) 1 (mirrorY 2) (conf (rectConf 1 2 1 1 0) [0, 1]) (conf (rectConf 1 2 1 1 0) [1, 0]) := by
  have : ∀ s t : Fin 2, gridPos 1 t = mirrorY 2 (gridPos 1 s) → occ 1 0 [1, 0] t = occ 1 0 [0, 1] s := by decide
  exact this

end TJ
