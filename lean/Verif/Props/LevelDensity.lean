/-
Property C144: the densities of a degenerate level. The single states of a degenerate level are not determined by the Hamiltonian, nor are
their densities; the densities summed over an orthonormal family that spans the level are, and they have all symmetries of the lattice.
-/
import Verif.Props.DominantPairs
import Verif.Lemmas.Slater
import Mathlib.LinearAlgebra.FiniteDimensional.Lemmas

namespace TJ

open Finset Matrix

section
variable {K : Type} [Field K]

/-- An orthonormal family inside a space of its size expands every vector of the space. -/
theorem level_expand {ι : Type} [Fintype ι] {m : Nat} (V : Submodule K (ι → K)) (hV : Module.finrank K V = m) (x : Fin m → ι → K)
    (hx : ∀ i, x i ∈ V) (ho : ∀ i j, ∑ k, x i k * x j k = if i = j then 1 else 0) (z : ι → K) (hz : z ∈ V) (k : ι) :
    z k = ∑ i, (∑ l, x i l * z l) * x i k := by
  have hli : LinearIndependent K x := by
    rw [Fintype.linearIndependent_iff]
    intro g hg j
    have h1 : ∑ l, x j l * (∑ i, g i • x i) l = g j := by
      simp only [Finset.sum_apply, Pi.smul_apply, smul_eq_mul, mul_sum]
      rw [sum_comm]
      have : ∀ i, ∑ l, x j l * (g i * x i l) = if j = i then g i else 0 := by
        intro i
        have h2 : ∑ l, x j l * (g i * x i l) = g i * ∑ l, x j l * x i l := by
          rw [mul_sum]
          exact sum_congr rfl fun l _ => by ring
        rw [h2, ho]
        split <;> simp
      rw [sum_congr rfl fun i _ => this i, sum_ite_eq]
      simp
    rw [hg] at h1
    simpa using h1.symm
  have hspan : Submodule.span K (Set.range x) = V := by
    refine Submodule.eq_of_le_of_finrank_eq (Submodule.span_le.2 ?_) ?_
    · rintro _ ⟨i, rfl⟩
      exact hx i
    · rw [finrank_span_eq_card hli, Fintype.card_fin, hV]
  rw [← hspan] at hz
  obtain ⟨g, rfl⟩ := (Submodule.mem_span_range_iff_exists_fun K).1 hz
  have key : ∀ j, ∑ l, x j l * (∑ i, g i • x i) l = g j := by
    intro j
    simp only [Finset.sum_apply, Pi.smul_apply, smul_eq_mul, mul_sum]
    rw [sum_comm]
    have : ∀ i, ∑ l, x j l * (g i * x i l) = if j = i then g i else 0 := by
      intro i
      have h2 : ∑ l, x j l * (g i * x i l) = g i * ∑ l, x j l * x i l := by
        rw [mul_sum]
        exact sum_congr rfl fun l _ => by ring
      rw [h2, ho]
      split <;> simp
    rw [sum_congr rfl fun i _ => this i, sum_ite_eq]
    simp
  simp only [key]
  simp [Finset.sum_apply]

/-- Two orthonormal families of one space have the same sums of squares. -/
theorem level_weights {ι : Type} [Fintype ι] {m : Nat} (V : Submodule K (ι → K)) (hV : Module.finrank K V = m)
    (x y : Fin m → ι → K) (hx : ∀ i, x i ∈ V) (hy : ∀ i, y i ∈ V) (hox : ∀ i j, ∑ k, x i k * x j k = if i = j then 1 else 0)
    (hoy : ∀ i j, ∑ k, y i k * y j k = if i = j then 1 else 0) (k : ι) : ∑ i, x i k * x i k = ∑ j, y j k * y j k := by
  have e1 : ∑ j, y j k * y j k = ∑ j, ∑ i, (∑ l, x i l * y j l) * x i k * y j k := by
    refine sum_congr rfl fun j _ => ?_
    have := level_expand V hV x hx hox (y j) (hy j) k
    calc y j k * y j k = (∑ i, (∑ l, x i l * y j l) * x i k) * y j k := by rw [← this]
      _ = _ := by rw [sum_mul]
  have e2 : ∑ i, x i k * x i k = ∑ i, ∑ j, (∑ l, y j l * x i l) * y j k * x i k := by
    refine sum_congr rfl fun i _ => ?_
    have := level_expand V hV y hy hoy (x i) (hx i) k
    calc x i k * x i k = (∑ j, (∑ l, y j l * x i l) * y j k) * x i k := by rw [← this]
      _ = _ := by rw [sum_mul]
  rw [e1, e2, sum_comm]
  refine sum_congr rfl fun j _ => sum_congr rfl fun i _ => ?_
  have : ∑ l, y j l * x i l = ∑ l, x i l * y j l := sum_congr rfl fun l _ => mul_comm _ _
  rw [this]; ring

/-- A family of orthonormal eigenvectors of one eigenvalue that has as many members as the eigenvalue has dimensions. -/
structure LevelBasis {d : Nat} (A : Matrix (Fin d) (Fin d) K) (μ : K) {m : Nat} (x : Fin m → Fin d → K) : Prop where
  /-- Every member is an eigenvector. -/
  eigen : ∀ i, A *ᵥ x i = μ • x i
  /-- The members are orthonormal. -/
  ortho : ∀ i j, x i ⬝ᵥ x j = if i = j then 1 else 0
  /-- There are as many as the multiplicity of the eigenvalue. -/
  full : Module.finrank K (Module.End.eigenspace (Matrix.toLin' A) μ) = m

variable {c : Config} {dets : List (List Nat)}

theorem LevelBasis.mem {E : Env} {nbh nbv nb : Nat} (hc : RectConf c nbh nbv nb) (hf : c.Full)
    (hn : c.nholes + c.nbeta ≤ c.nsites) {I : Interactions K} {B : BoolInteractions} {r : List Nat} {vb : Bool}
    (hb : constructBasis c = .ok dets) {H : SpMat K} (hH : buildHamiltonian E c I dets B r vb = .ok H) {μ : K} {m : Nat}
    {x : Fin m → Fin H.dim → K} (h : LevelBasis H.toMatrix μ x) :
    (∀ i, state c dets (x i) ∈ sectorEig I (fun s : Fin c.nsites => gridPos (nbh * nb) s) B c.nholes c.nbeta μ) ∧
      (∀ i j, ∑ σ, state c dets (x i) σ * state c dets (x j) σ = if i = j then 1 else 0) := by
  obtain ⟨H', g1, hd, _, _⟩ := buildHamiltonian_spec I (hc.tj E) hf hn hb B r vb
  obtain rfl := Except.ok.inj (hH.symm.trans g1)
  have hel := C31_matrix_elements E c nbh nbv nb hc hf hn I B r vb dets hb H hH
  refine ⟨fun i => ⟨state_sector hb hn _, fun σ => ?_⟩, fun i j => ?_⟩
  · have := state_mulVec hb hn hd hel (x i)
    rw [h.eigen] at this
    have h2 := congrFun this σ
    have h3 := congrFun ((stateMap (K := K) hb hn hd).map_smul μ (x i)) σ
    exact h2.symm.trans h3
  · rw [← state_dot hb hn hd, h.ortho]

theorem born_of_unit {n : Nat} {φ : Conf n → K} (h : ∑ σ, φ σ * φ σ = 1) (s : Fin n) (o : Occ) :
    born φ s o = ∑ σ, if σ s = o then φ σ * φ σ else 0 := by
  rw [born, h, div_one]

theorem sum_born {n m : Nat} (φ : Fin m → Conf n → K) (h : ∀ i, ∑ σ, φ i σ * φ i σ = 1) (s : Fin n) (o : Occ) :
    ∑ i, born (φ i) s o = ∑ σ, if σ s = o then ∑ i, φ i σ * φ i σ else 0 := by
  rw [sum_congr rfl fun i _ => born_of_unit (h i) s o, sum_comm]
  refine sum_congr rfl fun σ _ => ?_
  split
  · rfl
  · exact sum_const_zero

end

section
variable {K : Type} [Field K] [LinearOrder K] [IsStrictOrderedRing K]

/-- C144, part: the densities summed over an orthonormal family of a level do not depend on the family. Missing: the densities of the single
states of a degenerate level (`C144_not_determined`; exactly when they are determined: `C144_determined_iff`). -/
theorem C144_level_partial (E : Env) (c : Config) (nbh nbv nb : Nat) (hc : RectConf c nbh nbv nb)
    (hf : c.Full) (hn : c.nholes + c.nbeta ≤ c.nsites) (I : Interactions K) (B : BoolInteractions) (r : List Nat) (vb : Bool)
    (dets : List (List Nat)) (hb : constructBasis c = .ok dets) (H : SpMat K) (hH : buildHamiltonian E c I dets B r vb = .ok H)
    (μ : K) (m : Nat) (x y : Fin m → Fin H.dim → K) (hx : LevelBasis H.toMatrix μ x) (hy : LevelBasis H.toMatrix μ y) (o : Occ) :
    ∃ P Q : Fin m → List K, (∀ i, probabilitySpin c dets (List.ofFn (x i)) o.twice = .ok (P i)) ∧
      (∀ i, probabilitySpin c dets (List.ofFn (y i)) o.twice = .ok (Q i)) ∧
      ∀ s < c.nsites, ∑ i, (P i).getD s 0 = ∑ i, (Q i).getD s 0 := by
  obtain ⟨H', g1, hd, _, _⟩ := buildHamiltonian_spec I (hc.tj E) hf hn hb B r vb
  obtain rfl := Except.ok.inj (hH.symm.trans g1)
  obtain ⟨a1, a2⟩ := hx.mem hc hf hn hb hH
  obtain ⟨b1, b2⟩ := hy.mem hc hf hn hb hH
  choose P P1 P2 P3 using fun i => probabilitySpin_spec hb hn (List.ofFn (x i)) (by rw [List.length_ofFn, hd]) o
  choose Q Q1 Q2 Q3 using fun i => probabilitySpin_spec hb hn (List.ofFn (y i)) (by rw [List.length_ofFn, hd]) o
  refine ⟨P, Q, P1, Q1, fun s hs => ?_⟩
  rw [sum_congr rfl fun i _ => P3 i ⟨s, hs⟩, sum_congr rfl fun i _ => Q3 i ⟨s, hs⟩,
    sum_born (fun i => state c dets (x i)) (fun i => by rw [a2, if_pos rfl]),
    sum_born (fun i => state c dets (y i)) (fun i => by rw [b2, if_pos rfl])]
  refine sum_congr rfl fun σ _ => ?_
  rw [level_weights _ ((eigenspace_map hc hf hn hb hH μ).symm.trans hx.full) _ _ a1 b1 a2 b2 σ]

/-- The summed squares of a level are kept by every map of the occupations that keeps the Hamiltonian and the numbers of holes and spins. -/
theorem level_moved {E : Env} {c : Config} {nbh nbv nb : Nat} (hc : RectConf c nbh nbv nb)
    (hf : c.Full) (hn : c.nholes + c.nbeta ≤ c.nsites) {I : Interactions K} {B : BoolInteractions} {r : List Nat} {vb : Bool}
    {dets : List (List Nat)} (hb : constructBasis c = .ok dets) {H : SpMat K} (hH : buildHamiltonian E c I dets B r vb = .ok H)
    {μ : K} {m : Nat} {x : Fin m → Fin H.dim → K} (hx : LevelBasis H.toMatrix μ x) (ec : Conf c.nsites ≃ Conf c.nsites)
    (hk : ∀ σ τ, hamEl I (fun s : Fin c.nsites => gridPos (nbh * nb) s) B (ec σ) (ec τ) =
      hamEl I (fun s : Fin c.nsites => gridPos (nbh * nb) s) B σ τ)
    (hcnt : ∀ σ, (ec σ).count .hole = c.nholes ∧ (ec σ).count .down = c.nbeta → σ.count .hole = c.nholes ∧ σ.count .down = c.nbeta)
    (σ : Conf c.nsites) :
    ∑ i, state c dets (x i) (ec σ) * state c dets (x i) (ec σ) = ∑ i, state c dets (x i) σ * state c dets (x i) σ := by
  obtain ⟨a1, a2⟩ := hx.mem hc hf hn hb hH
  refine level_weights _ ((eigenspace_map hc hf hn hb hH μ).symm.trans hx.full) (fun i σ => state c dets (x i) (ec σ))
    (fun i => state c dets (x i)) (fun i => ⟨fun σ hσ => hcnt σ ((a1 i).1 _ hσ), fun σ => ?_⟩) a1 (fun i j => ?_) a2 σ
  · rw [← (a1 i).2]
    unfold tjOp
    symm
    rw [← Equiv.sum_comp ec]
    refine sum_congr rfl fun τ _ => ?_
    rw [hk]
  · rw [← a2 i j]
    exact Equiv.sum_comp ec (fun σ => state c dets (x i) σ * state c dets (x j) σ)

/-- C144. The densities summed over a level have the symmetries of the rectangle, whatever the multiplicity (`C98_density` is the case of one
state). -/
theorem C144_symmetric (E : Env) (c : Config) (nbh nbv nb : Nat) (hc : RectConf c nbh nbv nb)
    (hf : c.Full) (hn : c.nholes + c.nbeta ≤ c.nsites) (I : Interactions K) (B : BoolInteractions) (r : List Nat) (vb : Bool)
    (dets : List (List Nat)) (hb : constructBasis c = .ok dets) (H : SpMat K) (hH : buildHamiltonian E c I dets B r vb = .ok H)
    (f : Pt → Pt) (hs : LatSym (nbh * nb) (nbv * nb) f) (μ : K) (m : Nat) (x : Fin m → Fin H.dim → K) (hx : LevelBasis H.toMatrix μ x)
    (o : Occ) :
    ∃ P : Fin m → List K, (∀ i, probabilitySpin c dets (List.ofFn (x i)) o.twice = .ok (P i)) ∧
      ∀ s t : Fin c.nsites, gridPos (nbh * nb) t = f (gridPos (nbh * nb) s) → ∑ i, (P i).getD t 0 = ∑ i, (P i).getD s 0 := by
  obtain ⟨H', g1, hd, _, _⟩ := buildHamiltonian_spec I (hc.tj E) hf hn hb B r vb
  obtain rfl := Except.ok.inj (hH.symm.trans g1)
  obtain ⟨a1, a2⟩ := hx.mem hc hf hn hb hH
  choose P P1 P2 P3 using fun i => probabilitySpin_spec hb hn (List.ofFn (x i)) (by rw [List.length_ofFn, hd]) o
  refine ⟨P, P1, fun s t hst => ?_⟩
  obtain ⟨e, he⟩ := exists_perm (n := c.nsites) hc.spec.1 hs.keeps
  have hes : e s = t := Fin.ext (gridPos_inj ((he s).trans hst.symm))
  let ec : Conf c.nsites ≃ Conf c.nsites := Equiv.arrowCongr e.symm (Equiv.refl Occ)
  have hec : ∀ σ, ec σ = fun s => σ (e s) := fun σ => rfl
  have key := level_moved hc hf hn hb hH hx ec (fun σ τ => by
      show hamEl I _ B (fun s => σ (e s)) (fun s => τ (e s)) = _
      rw [hamEl_keeps hs.keeps I B he]) (fun σ hσ => by rwa [hec, count_comp, count_comp] at hσ)
  rw [sum_congr rfl fun i _ => P3 i t, sum_congr rfl fun i _ => P3 i s,
    sum_born (fun i => state c dets (x i)) (fun i => by rw [a2, if_pos rfl]),
    sum_born (fun i => state c dets (x i)) (fun i => by rw [a2, if_pos rfl])]
  symm
  rw [← Equiv.sum_comp ec]
  refine sum_congr rfl fun σ _ => ?_
  rw [key]
  show (if σ (e s) = o then _ else _) = _
  rw [hes]

/-- C144. With as many up as down spins, the densities of the up and of the down spins summed over a level are the same on every site. -/
theorem C144_reversed (E : Env) (c : Config) (nbh nbv nb : Nat) (hc : RectConf c nbh nbv nb)
    (hf : c.Full) (hn : c.nholes + 2 * c.nbeta = c.nsites) (I : Interactions K) (B : BoolInteractions) (r : List Nat) (vb : Bool)
    (dets : List (List Nat)) (hb : constructBasis c = .ok dets) (H : SpMat K) (hH : buildHamiltonian E c I dets B r vb = .ok H)
    (μ : K) (m : Nat) (x : Fin m → Fin H.dim → K) (hx : LevelBasis H.toMatrix μ x) :
    ∃ P Q : Fin m → List K, (∀ i, probabilitySpin c dets (List.ofFn (x i)) 1 = .ok (P i)) ∧
      (∀ i, probabilitySpin c dets (List.ofFn (x i)) (-1) = .ok (Q i)) ∧
      ∀ s < c.nsites, ∑ i, (P i).getD s 0 = ∑ i, (Q i).getD s 0 := by
  have hn' : c.nholes + c.nbeta ≤ c.nsites := by omega
  obtain ⟨H', g1, hd, _, _⟩ := buildHamiltonian_spec I (hc.tj E) hf hn' hb B r vb
  obtain rfl := Except.ok.inj (hH.symm.trans g1)
  obtain ⟨a1, a2⟩ := hx.mem hc hf hn' hb hH
  choose P P1 P2 P3 using fun i => probabilitySpin_spec hb hn' (List.ofFn (x i)) (by rw [List.length_ofFn, hd]) .up
  choose Q Q1 Q2 Q3 using fun i => probabilitySpin_spec hb hn' (List.ofFn (x i)) (by rw [List.length_ofFn, hd]) .down
  refine ⟨P, Q, P1, Q1, fun s hs => ?_⟩
  have key := level_moved hc hf hn' hb hH hx revEquiv (fun σ τ => hamEl_rev I _ B σ τ) (fun σ hσ => by
    have h2 := count_rev σ
    have h3 := count_sum σ
    have h4 : σ.rev.count .hole = c.nholes ∧ σ.rev.count .down = c.nbeta := hσ
    omega)
  rw [sum_congr rfl fun i _ => P3 i ⟨s, hs⟩, sum_congr rfl fun i _ => Q3 i ⟨s, hs⟩,
    sum_born (fun i => state c dets (x i)) (fun i => by rw [a2, if_pos rfl]),
    sum_born (fun i => state c dets (x i)) (fun i => by rw [a2, if_pos rfl])]
  symm
  rw [← Equiv.sum_comp revEquiv]
  refine sum_congr rfl fun σ _ => ?_
  rw [key]
  have : (revEquiv σ ⟨s, hs⟩ = .down) ↔ (σ ⟨s, hs⟩ = .up) := by
    show (σ ⟨s, hs⟩).rev = .down ↔ _
    cases σ ⟨s, hs⟩ <;> simp [Occ.rev]
  simp only [this]

/-- C144. Exactly when the density of a species on a site is the same value p for every state of a level: the operator of the density is p
times the identity on the level. -/
theorem C144_determined_iff (E : Env) (c : Config) (nbh nbv nb : Nat) (hc : RectConf c nbh nbv nb)
    (hf : c.Full) (hn : c.nholes + c.nbeta ≤ c.nsites) (I : Interactions K) (B : BoolInteractions) (r : List Nat) (vb : Bool)
    (dets : List (List Nat)) (hb : constructBasis c = .ok dets) (H : SpMat K) (hH : buildHamiltonian E c I dets B r vb = .ok H)
    (μ : K) (m : Nat) (x : Fin m → Fin H.dim → K) (hx : LevelBasis H.toMatrix μ x) (o : Occ) (s : Fin c.nsites) (p : K) :
    (∀ z : Fin H.dim → K, z ≠ 0 → H.toMatrix *ᵥ z = μ • z →
        ∃ P, probabilitySpin c dets (List.ofFn z) o.twice = .ok P ∧ P.getD s 0 = p) ↔
      ∀ i j, (∑ k : Fin H.dim, if conf c (dets.getD k []) s = o then x i k * x j k else 0) = if i = j then p else 0 := by
  obtain ⟨H', g1, hd, _, _⟩ := buildHamiltonian_spec I (hc.tj E) hf hn hb B r vb
  obtain rfl := Except.ok.inj (hH.symm.trans g1)
  -- the density in terms of the coefficients
  have hpart : ∀ z w : Fin H.dim → K, (∑ σ, if σ s = o then state c dets z σ * state c dets w σ else 0) =
      ∑ k : Fin H.dim, if conf c (dets.getD k []) s = o then z k * w k else 0 := by
    intro z w
    rw [sum_amp hb hn _ (fun σ h => by rw [state, amp_outside hb hn _ h, zero_mul, ite_self]), ← hd,
      ← Fin.sum_univ_eq_sum_range (fun k => if conf c (dets.getD k []) s = o then
        state c dets z (conf c (dets.getD k [])) * state c dets w (conf c (dets.getD k [])) else 0)]
    refine sum_congr rfl fun k _ => ?_
    rw [List.getD_eq_getElem dets [] (hd ▸ k.2), state_conf hb _ hd (hd ▸ k.2), state_conf hb _ hd (hd ▸ k.2)]
  have hprob : ∀ z : Fin H.dim → K, ∃ P, probabilitySpin c dets (List.ofFn z) o.twice = .ok P ∧
      P.getD s 0 = (∑ k : Fin H.dim, if conf c (dets.getD k []) s = o then z k * z k else 0) / (z ⬝ᵥ z) := by
    intro z
    obtain ⟨P, p1, _, p3⟩ := probabilitySpin_spec hb hn (List.ofFn z) (by rw [List.length_ofFn, hd]) o
    exact ⟨P, p1, by rw [p3, born, hpart, state_dot hb hn hd]⟩
  have hpos : ∀ z : Fin H.dim → K, z ≠ 0 → z ⬝ᵥ z ≠ 0 := fun z hz h => hz (dotProduct_self_eq_zero.1 h)
  have hval : ∀ z : Fin H.dim → K, z ≠ 0 → ((∃ P, probabilitySpin c dets (List.ofFn z) o.twice = .ok P ∧ P.getD s 0 = p) ↔
      (∑ k : Fin H.dim, if conf c (dets.getD k []) s = o then z k * z k else 0) = p * (z ⬝ᵥ z)) := by
    intro z hz
    obtain ⟨P, p1, p2⟩ := hprob z
    rw [← div_eq_iff (hpos z hz), ← p2]
    constructor
    · rintro ⟨P', q1, q2⟩
      obtain rfl := Except.ok.inj (p1.symm.trans q1)
      exact q2
    · exact fun h => ⟨P, p1, h⟩
  have hne : ∀ i, x i ≠ 0 := by
    intro i h
    have := hx.ortho i i
    rw [h, if_pos rfl, zero_dotProduct] at this
    exact zero_ne_one this
  constructor
  · intro h i j
    by_cases hij : i = j
    · subst hij
      have := (hval _ (hne i)).1 (h _ (hne i) (hx.eigen i))
      rw [hx.ortho, if_pos rfl, mul_one] at this
      rw [if_pos rfl, this]
    · rw [if_neg hij]
      have hsum : (x i + x j) ⬝ᵥ (x i + x j) = 2 := by
        rw [add_dotProduct, dotProduct_add, dotProduct_add, hx.ortho, hx.ortho, hx.ortho, hx.ortho, if_pos rfl, if_pos rfl, if_neg hij,
          if_neg (Ne.symm hij)]
        ring
      have hz : x i + x j ≠ 0 := by
        intro h
        rw [h, zero_dotProduct] at hsum
        exact two_ne_zero hsum.symm
      have e1 := (hval _ hz).1 (h _ hz (by rw [mulVec_add, hx.eigen, hx.eigen, smul_add]))
      have e2 := (hval _ (hne i)).1 (h _ (hne i) (hx.eigen i))
      have e3 := (hval _ (hne j)).1 (h _ (hne j) (hx.eigen j))
      rw [hsum] at e1
      rw [hx.ortho, if_pos rfl] at e2 e3
      have e4 : (∑ k : Fin H.dim, if conf c (dets.getD k []) s = o then (x i + x j) k * (x i + x j) k else 0) =
          (∑ k : Fin H.dim, if conf c (dets.getD k []) s = o then x i k * x i k else 0) +
          (∑ k : Fin H.dim, if conf c (dets.getD k []) s = o then x j k * x j k else 0) +
          2 * (∑ k : Fin H.dim, if conf c (dets.getD k []) s = o then x i k * x j k else 0) := by
        rw [mul_sum, ← sum_add_distrib, ← sum_add_distrib]
        refine sum_congr rfl fun k _ => ?_
        split
        · rw [Pi.add_apply]; ring
        · ring
      linarith
  · intro h z hz hev
    rw [hval z hz]
    have hV : Module.finrank K (Module.End.eigenspace (Matrix.toLin' H.toMatrix) μ) = m := hx.full
    have hin : ∀ w : Fin H.dim → K, H.toMatrix *ᵥ w = μ • w → w ∈ Module.End.eigenspace (Matrix.toLin' H.toMatrix) μ := by
      intro w hw
      rw [Module.End.mem_eigenspace_iff, Matrix.toLin'_apply, hw]
    have hexp := level_expand _ hV x (fun i => hin _ (hx.eigen i)) (fun i j => hx.ortho i j) z (hin z hev)
    set a : Fin m → K := fun i => ∑ l, x i l * z l with ha
    have hzz : z ⬝ᵥ z = ∑ i, a i * a i := by
      have : z ⬝ᵥ z = ∑ k, (∑ i, a i * x i k) * z k := sum_congr rfl fun k _ => by rw [← hexp k]
      rw [this]
      simp only [sum_mul]
      rw [sum_comm]
      refine sum_congr rfl fun i _ => ?_
      rw [ha]
      simp only []
      rw [mul_sum]
      exact sum_congr rfl fun k _ => by ring
    have hdd : (∑ k : Fin H.dim, if conf c (dets.getD k []) s = o then z k * z k else 0) =
        ∑ i, ∑ j, a i * a j * ∑ k : Fin H.dim, if conf c (dets.getD k []) s = o then x i k * x j k else 0 := by
      have e : ∀ k : Fin H.dim, (if conf c (dets.getD k []) s = o then z k * z k else 0) =
          ∑ i, ∑ j, a i * a j * (if conf c (dets.getD k []) s = o then x i k * x j k else 0) := by
        intro k
        split
        · calc z k * z k = (∑ i, a i * x i k) * (∑ j, a j * x j k) := by rw [← hexp k]
            _ = _ := by
              rw [sum_mul_sum]
              exact sum_congr rfl fun i _ => sum_congr rfl fun j _ => by ring
        · simp
      rw [sum_congr rfl fun k _ => e k, sum_comm]
      refine sum_congr rfl fun i _ => ?_
      rw [sum_comm]
      exact sum_congr rfl fun j _ => (mul_sum _ _ _).symm
    rw [hdd, hzz, mul_sum]
    refine sum_congr rfl fun i _ => ?_
    simp only [h, mul_ite, mul_zero, sum_ite_eq, mem_univ, if_true]
    ring

end

/-- C144. The full claim is false: one hole in a square of up spins, hopping only. Both vectors are eigenvectors of energy 0; the hole is with
probability 1/2 on two sites in the first and 1/4 on every site in the second. -/
theorem C144_not_determined : ∃ (dets : List (List Nat)) (H : SpMat ℚ) (v w : List ℚ),
    constructBasis (rectConf 2 2 1 1 0) = .ok dets ∧
    buildHamiltonian exEnv (rectConf 2 2 1 1 0) exI dets ⟨true, false, false, false, false, false⟩ [] false = .ok H ∧
    H.dim = 4 ∧ matVec H v = v.map (fun a => 0 * a) ∧ matVec H w = w.map (fun a => 0 * a) ∧
    probabilitySpin (rectConf 2 2 1 1 0) dets v 0 = .ok [1 / 2, 0, 0, 1 / 2] ∧
    probabilitySpin (rectConf 2 2 1 1 0) dets w 0 = .ok [1 / 4, 1 / 4, 1 / 4, 1 / 4] := by
  refine ⟨_, _, [1, 0, 0, -1], [1, 1, -1, -1], rfl, rfl, ?_, ?_, ?_, ?_, ?_⟩ <;> decide +kernel

/-- Every level of a real symmetric matrix has such a family. -/
theorem levelBasis_exists {d : Nat} (A : Matrix (Fin d) (Fin d) ℝ) (hA : A.IsSymm) (μ : ℝ) :
    ∃ (m : Nat) (x : Fin m → Fin d → ℝ), LevelBasis A μ x := by
  classical
  obtain ⟨e1, e2⟩ := realLib_eigh d A hA
  set l := (realLib.eigh d A).1
  set v := (realLib.eigh d A).2
  have hli : LinearIndependent ℝ v := by
    rw [Fintype.linearIndependent_iff]
    intro g hg j
    have h1 : v j ⬝ᵥ (∑ i, g i • v i) = g j := by
      rw [dotProduct_sum]
      simp [dotProduct_smul, e2]
    rw [hg, dotProduct_zero] at h1
    exact h1.symm
  let b := Module.Basis.mk hli (hli.span_eq_top_of_card_eq_finrank' (by simp)).ge
  have hb : ∀ i, b i = v i := fun i => Module.Basis.mk_apply _ _ i
  have hfin := finrank_eigenspace_basis b (Matrix.toLin' A) l (fun i => by rw [hb, Matrix.toLin'_apply, e1]) μ
  let g := (univ.filter fun i => l i = μ).equivFin
  refine ⟨_, fun i => v (g.symm i).1, fun i => ?_, fun i j => ?_, hfin⟩
  · rw [e1, (mem_filter.1 (g.symm i).2).2]
  · rw [e2]
    congr 1
    rw [Subtype.ext_iff.symm.eq, g.symm.injective.eq_iff]

/-- Two holes, two up and two down spins on the 3 x 2 lattice, all terms: every level has a family, its summed densities have the
symmetries of the lattice, and the two spins have the same. -/
example (dets : List (List Nat)) (hb : constructBasis (rectConf 3 2 1 2 2) = .ok dets) (H : SpMat ℝ)
    (hH : buildHamiltonian exEnv (rectConf 3 2 1 2 2) ⟨1, 2, 3, 5, 7, 11, 13, 17, 19, 23⟩ dets ⟨true, true, true, true, true, true⟩ [] false =
      .ok H) (μ : ℝ) (f : Pt → Pt) (hs : LatSym (3 * 1) (2 * 1) f) :
    ∃ (m : Nat) (x : Fin m → Fin H.dim → ℝ), LevelBasis H.toMatrix μ x ∧
      (∃ P : Fin m → List ℝ, (∀ i, probabilitySpin (rectConf 3 2 1 2 2) dets (List.ofFn (x i)) 0 = .ok (P i)) ∧
        ∀ s t : Fin (rectConf 3 2 1 2 2).nsites, gridPos 3 t = f (gridPos 3 s) → ∑ i, (P i).getD t 0 = ∑ i, (P i).getD s 0) ∧
      (∃ P Q : Fin m → List ℝ, (∀ i, probabilitySpin (rectConf 3 2 1 2 2) dets (List.ofFn (x i)) 1 = .ok (P i)) ∧
        (∀ i, probabilitySpin (rectConf 3 2 1 2 2) dets (List.ofFn (x i)) (-1) = .ok (Q i)) ∧
        ∀ s < (rectConf 3 2 1 2 2).nsites, ∑ i, (P i).getD s 0 = ∑ i, (Q i).getD s 0) := by
  have hc := rectConf_ok 3 2 1 2 2 (by decide) (by decide) (by decide)
  have hf : (rectConf 3 2 1 2 2).Full := by unfold Config.Full; decide +kernel
  have hn : (rectConf 3 2 1 2 2).nholes + 2 * (rectConf 3 2 1 2 2).nbeta = (rectConf 3 2 1 2 2).nsites := rfl
  have hn' : (rectConf 3 2 1 2 2).nholes + (rectConf 3 2 1 2 2).nbeta ≤ (rectConf 3 2 1 2 2).nsites := by decide
  obtain ⟨m, x, hx⟩ := levelBasis_exists H.toMatrix (by
    ext i j
    exact C32_symmetric exEnv _ 3 2 1 hc hf hn' _ _ _ _ dets hb H hH j i) μ
  exact ⟨m, x, hx, C144_symmetric exEnv _ 3 2 1 hc hf hn' _ _ _ _ dets hb H hH f hs μ m x hx .hole,
    C144_reversed exEnv _ 3 2 1 hc hf hn _ _ _ _ dets hb H hH μ m x hx⟩

/-- Two orthogonal families of the level of energy 0 of `C144_not_determined`: the densities of the single states differ, their sums are the
same, 1/2 on every site. -/
example : ∃ (dets : List (List Nat)), constructBasis (rectConf 2 2 1 1 0) = .ok dets ∧
    probabilitySpin (rectConf 2 2 1 1 0) dets [(1 : ℚ), 0, 0, -1] 0 = .ok [1 / 2, 0, 0, 1 / 2] ∧
    probabilitySpin (rectConf 2 2 1 1 0) dets [(0 : ℚ), 1, -1, 0] 0 = .ok [0, 1 / 2, 1 / 2, 0] ∧
    probabilitySpin (rectConf 2 2 1 1 0) dets [(1 : ℚ), 1, -1, -1] 0 = .ok [1 / 4, 1 / 4, 1 / 4, 1 / 4] ∧
    probabilitySpin (rectConf 2 2 1 1 0) dets [(1 : ℚ), -1, 1, -1] 0 = .ok [1 / 4, 1 / 4, 1 / 4, 1 / 4] := by
  refine ⟨_, rfl, ?_, ?_, ?_, ?_⟩ <;> decide +kernel

end TJ
