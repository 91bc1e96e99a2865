/-
Property C116: how far the embedding in a border moves the energies of a block.
-/
import Verif.Props.Couplings
import Verif.Props.EmbeddingTotal
import Verif.Props.RitzValues

namespace TJ

open Finset Matrix

section
variable {W H : Nat}

/-- A site of the block has at most two neighbours on the border. -/
theorem near_border (hW : 2 ≤ W) (hH : 2 ≤ H) {a : Nat} (ha : a < W * H) :
    ((range (2 * (W + H))).filter fun r => Near (periPos W H a) (periPos W H (W * H + r))).card ≤ 2 := by
  have g := gridPos_range (by omega : 1 ≤ W) ha
  rw [periPos_block ha]
  set p := gridPos W a
  have sub : ((range (2 * (W + H))).filter fun r => Near p (periPos W H (W * H + r))).image (fun r => periPos W H (W * H + r)) ⊆
      {((if p.1 = 0 then -1 else (W : Int)), p.2), (p.1, (if p.2 = 0 then -1 else (H : Int)))} := by
    intro q hq
    obtain ⟨r, hr, rfl⟩ := mem_image.1 hq
    obtain ⟨hr, hnear⟩ := mem_filter.1 hr
    have cl := periPos_class (W := W) (H := H) (s := W * H + r) (by omega) (by have := mem_range.1 hr; omega)
    set q := periPos W H (W * H + r)
    unfold Near at hnear
    simp only [mem_insert, mem_singleton, Prod.ext_iff]
    split_ifs <;> omega
  have := card_le_card sub
  rw [card_image_of_injOn] at this
  · exact le_trans this (card_le_two)
  · intro i hi j hj hij
    have h1 := mem_range.1 (mem_filter.1 hi).1
    have h2 := mem_range.1 (mem_filter.1 hj).1
    have := periPos_inj (by omega : 1 ≤ W) (by omega) (by omega) hij
    omega

/-- A site of the block has at most two sites of the border across a tile. -/
theorem diagonal_border (hW : 2 ≤ W) (hH : 2 ≤ H) {a : Nat} (ha : a < W * H) :
    ((range (2 * (W + H))).filter fun r => Diagonal (periPos W H a) (periPos W H (W * H + r))).card ≤ 2 := by
  have g := gridPos_range (by omega : 1 ≤ W) ha
  rw [periPos_block ha]
  set p := gridPos W a
  have sub : ∃ s : Finset Pt, s.card ≤ 2 ∧
      ((range (2 * (W + H))).filter fun r => Diagonal p (periPos W H (W * H + r))).image (fun r => periPos W H (W * H + r)) ⊆ s := by
    by_cases ey : p.2 = 0 ∨ p.2 = (H : Int) - 1
    · by_cases ex : p.1 = 0 ∨ p.1 = (W : Int) - 1
      · refine ⟨{((if p.1 = 0 then -1 else (W : Int)), (if p.2 = 0 then 1 else (H : Int) - 2)),
          ((if p.1 = 0 then 1 else (W : Int) - 2), (if p.2 = 0 then -1 else (H : Int)))}, card_le_two, ?_⟩
        intro q hq
        obtain ⟨r, hr, rfl⟩ := mem_image.1 hq
        obtain ⟨hr, hd⟩ := mem_filter.1 hr
        have cl := periPos_class (W := W) (H := H) (s := W * H + r) (by omega) (by have := mem_range.1 hr; omega)
        set q := periPos W H (W * H + r)
        unfold Diagonal at hd
        simp only [mem_insert, mem_singleton, Prod.ext_iff]
        split_ifs <;> omega
      · refine ⟨{(p.1 - 1, (if p.2 = 0 then -1 else (H : Int))), (p.1 + 1, (if p.2 = 0 then -1 else (H : Int)))}, card_le_two, ?_⟩
        intro q hq
        obtain ⟨r, hr, rfl⟩ := mem_image.1 hq
        obtain ⟨hr, hd⟩ := mem_filter.1 hr
        have cl := periPos_class (W := W) (H := H) (s := W * H + r) (by omega) (by have := mem_range.1 hr; omega)
        set q := periPos W H (W * H + r)
        unfold Diagonal at hd
        simp only [mem_insert, mem_singleton, Prod.ext_iff]
        split_ifs <;> omega
    · refine ⟨{((if p.1 = 0 then -1 else (W : Int)), p.2 - 1), ((if p.1 = 0 then -1 else (W : Int)), p.2 + 1)}, card_le_two, ?_⟩
      intro q hq
      obtain ⟨r, hr, rfl⟩ := mem_image.1 hq
      obtain ⟨hr, hd⟩ := mem_filter.1 hr
      have cl := periPos_class (W := W) (H := H) (s := W * H + r) (by omega) (by have := mem_range.1 hr; omega)
      set q := periPos W H (W * H + r)
      unfold Diagonal at hd
      simp only [mem_insert, mem_singleton, Prod.ext_iff]
      split_ifs <;> omega
  obtain ⟨s, hs, sub⟩ := sub
  have := card_le_card sub
  rw [card_image_of_injOn] at this
  · exact le_trans this hs
  · intro i hi j hj hij
    have h1 := mem_range.1 (mem_filter.1 hi).1
    have h2 := mem_range.1 (mem_filter.1 hj).1
    have := periPos_inj (by omega : 1 ≤ W) (by omega) (by omega) hij
    omega

/-- A site of the border has at most one neighbour in the block. -/
theorem border_near {r : Nat} (hW : 1 ≤ W) (hr : r < 2 * (W + H)) :
    ((range (W * H)).filter fun a => Near (periPos W H a) (periPos W H (W * H + r))).card ≤ 1 := by
  rw [card_le_one]
  intro a ha b hb
  obtain ⟨ha, na⟩ := mem_filter.1 ha
  obtain ⟨hb, nb⟩ := mem_filter.1 hb
  have ga := gridPos_range hW (mem_range.1 ha)
  have gb := gridPos_range hW (mem_range.1 hb)
  have cl := periPos_class (W := W) (H := H) (s := W * H + r) (by omega) (by omega)
  rw [periPos_block (mem_range.1 ha)] at na
  rw [periPos_block (mem_range.1 hb)] at nb
  unfold Near at na nb
  refine gridPos_inj (W := W) (Prod.ext ?_ ?_) <;> omega

end

section
variable {K : Type} [Field K] [LinearOrder K] [IsStrictOrderedRing K]

/-- The interaction with the border lies between `-J/2` times the number of border sites and twice the repulsions times the number of holes. -/
theorem border_bounds {W H : Nat} (hW : 2 ≤ W) (hH : 2 ≤ H) (I : Interactions K) (hJ : 0 ≤ I.J) (hV : 0 ≤ I.VNN) (hV' : 0 ≤ I.VNNNper)
    (σ : Nat → Occ) (f : Occ → Nat → K) (hf : ∀ r < 2 * (W + H), ∀ o, 0 ≤ f o r ∧ f o r ≤ 1) :
    - (I.J / 2 * (2 * (W + H) : Nat)) ≤ borderEnergy I (W * H) (2 * (W + H)) (fun a r => Near (periPos W H a) (periPos W H (W * H + r)))
        (fun a r => Diagonal (periPos W H a) (periPos W H (W * H + r))) σ f ∧
      borderEnergy I (W * H) (2 * (W + H)) (fun a r => Near (periPos W H a) (periPos W H (W * H + r)))
        (fun a r => Diagonal (periPos W H a) (periPos W H (W * H + r))) σ f ≤
          2 * ((range (W * H)).filter fun a => σ a = .hole).card * (I.VNN + I.VNNNper) := by
  unfold borderEnergy
  constructor
  · rw [sum_comm]
    have : - (I.J / 2 * (2 * (W + H) : Nat)) = ∑ r ∈ range (2 * (W + H)), - (I.J / 2) := by
      rw [sum_const, card_range, nsmul_eq_mul]; ring
    rw [this]
    refine sum_le_sum fun r hr => ?_
    have h1 : (∑ a ∈ range (W * H), if Near (periPos W H a) (periPos W H (W * H + r)) then - (I.J / 2) else 0) ≤
        ∑ a ∈ range (W * H), ((if Near (periPos W H a) (periPos W H (W * H + r)) then bondEnergy I (σ a) (fun o => f o r) else 0) +
          if Diagonal (periPos W H a) (periPos W H (W * H + r)) then cornerEnergy I (σ a) (fun o => f o r) else 0) := by
      refine sum_le_sum fun a _ => ?_
      have hc : 0 ≤ cornerEnergy I (σ a) (fun o => f o r) := by
        cases σ a <;> simp only [cornerEnergy, le_refl]
        exact mul_nonneg hV' (hf r (mem_range.1 hr) _).1
      have hb : - (I.J / 2) ≤ bondEnergy I (σ a) (fun o => f o r) := by
        have e : ∀ o, - (I.J / 2) ≤ - (I.J / 2) * f o r := by
          intro o
          have := mul_le_mul_of_nonneg_left (hf r (mem_range.1 hr) o).2 (by linarith : 0 ≤ I.J / 2)
          linarith
        cases σ a <;> simp only [bondEnergy]
        · have := mul_nonneg hV (hf r (mem_range.1 hr) .hole).1
          linarith
        · exact e _
        · exact e _
      split_ifs <;> linarith
    refine le_trans ?_ h1
    rw [← sum_filter, sum_const, nsmul_eq_mul]
    have : (((range (W * H)).filter fun a => Near (periPos W H a) (periPos W H (W * H + r))).card : K) ≤ 1 := by
      exact_mod_cast border_near (by omega) (mem_range.1 hr)
    have := mul_le_mul_of_nonneg_right this (by linarith : 0 ≤ I.J / 2)
    linarith
  · have : (2 * ((range (W * H)).filter fun a => σ a = .hole).card * (I.VNN + I.VNNNper) : K) =
        ∑ a ∈ range (W * H), if σ a = .hole then 2 * (I.VNN + I.VNNNper) else 0 := by
      rw [← sum_filter, sum_const, nsmul_eq_mul]; ring
    rw [this]
    refine sum_le_sum fun a ha => ?_
    split_ifs with hs
    · rw [hs, sum_add_distrib, ← sum_filter, ← sum_filter, mul_add (2 : K) I.VNN]
      refine add_le_add ?_ ?_
      · have c : (((range (2 * (W + H))).filter fun r => Near (periPos W H a) (periPos W H (W * H + r))).card : K) ≤ 2 := by
          exact_mod_cast near_border hW hH (mem_range.1 ha)
        refine le_trans (sum_le_card_nsmul _ _ I.VNN fun r hr => ?_) ?_
        · have := (hf r (mem_range.1 (mem_filter.1 hr).1) .hole).2
          simpa [bondEnergy] using mul_le_mul_of_nonneg_left this hV
        · rw [nsmul_eq_mul]
          exact mul_le_mul_of_nonneg_right c hV
      · have c : (((range (2 * (W + H))).filter fun r => Diagonal (periPos W H a) (periPos W H (W * H + r))).card : K) ≤ 2 := by
          exact_mod_cast diagonal_border hW hH (mem_range.1 ha)
        refine le_trans (sum_le_card_nsmul _ _ I.VNNNper fun r hr => ?_) ?_
        · have := (hf r (mem_range.1 (mem_filter.1 hr).1) .hole).2
          simpa [cornerEnergy] using mul_le_mul_of_nonneg_left this hV'
        · rw [nsmul_eq_mul]
          exact mul_le_mul_of_nonneg_right c hV'
    · refine sum_nonpos fun r hr => ?_
      have e : ∀ o, - (I.J / 2) * f o r ≤ 0 := by
        intro o
        have := mul_nonneg (by linarith : 0 ≤ I.J / 2) (hf r (mem_range.1 hr) o).1
        linarith
      have hb : bondEnergy I (σ a) (fun o => f o r) ≤ 0 := by
        revert hs
        cases σ a <;> simp only [bondEnergy] <;> intro hs
        · exact absurd trivial hs
        · exact e _
        · exact e _
      have hc : cornerEnergy I (σ a) (fun o => f o r) = 0 := by
        revert hs
        cases σ a <;> simp [cornerEnergy]
      rw [hc]
      split_ifs <;> linarith

omit [LinearOrder K] [IsStrictOrderedRing K] in
/-- Two descriptions of the same dictionary agree. -/
theorem law_unique {p : List (Int × List K)} {m : Nat} {f g : Occ → Nat → K} (hf : IsLaw p m f) (hg : IsLaw p m g) (o : Occ) (r : Nat)
    (hr : r < m) : f o r = g o r := by
  obtain ⟨l, a1, _, a3⟩ := hf o
  obtain ⟨l', b1, _, b3⟩ := hg o
  obtain rfl := Option.some.inj (a1.symm.trans b1)
  rw [← a3 r hr, b3 r hr]

/-- C116. In every iteration of `embedding_neel` on a block with at least two rows and columns, with `J` and the repulsions not negative, every energy
of the dressed block lies between the energy of the same number of the isolated block lowered by `J/2` per border site, and that energy raised by twice
the repulsions per hole. -/
theorem C116_shift (E : Env) (sqrt : K → K) (solve : Solver K) (fuel : Nat) (I : Interactions K) (hJ : 0 ≤ I.J) (hV : 0 ≤ I.VNN)
    (hV' : 0 ≤ I.VNNNper) (c : Config)
    (hc : RectConf c c.nbh c.nbv c.nblocs) (hW : 2 ≤ c.nbh * c.nblocs) (hH : 2 ≤ c.nbv * c.nblocs) (dets : List (List Nat))
    (hsol : solve.Good dets.length) (hb : constructBasis c = .ok dets) (hn : c.nholes + c.nbeta ≤ c.nsites) (ham : SpMat K) (hd : ham.dim = dets.length)
    (hin : ∀ t ∈ ham.coo, t.2.1 < ham.dim ∧ t.2.2 < ham.dim) (hsym : ham.toMatrix.IsSymm) (eigvects : List (List K)) (tol : K) (maxIter : Nat)
    (r : NeelResult K) (h : embeddingNeel E sqrt solve fuel I c dets ham eigvects tol maxIter = .ok r)
    (e : Fin ham.dim → K) (w : Fin ham.dim → Fin ham.dim → K) (hw : ∀ k, ham.toMatrix *ᵥ w k = e k • w k)
    (hwo : ∀ i j, w i ⬝ᵥ w j = if i = j then 1 else 0) (he : Monotone e) :
    ∀ x ∈ r.trace, x.ham.dim = ham.dim ∧ x.ham.toMatrix.IsSymm ∧ ∀ (e' : Fin x.ham.dim → K) (w' : Fin x.ham.dim → Fin x.ham.dim → K),
      (∀ k, x.ham.toMatrix *ᵥ w' k = e' k • w' k) → (∀ i j, w' i ⬝ᵥ w' j = if i = j then 1 else 0) → Monotone e' →
      ∀ k (hk : k < ham.dim) (hk' : k < x.ham.dim),
        e ⟨k, hk⟩ - I.J / 2 * (2 * (c.nbh + c.nbv) * c.nblocs : Nat) ≤ e' ⟨k, hk'⟩ ∧
        e' ⟨k, hk'⟩ ≤ e ⟨k, hk⟩ + 2 * c.nholes * (I.VNN + I.VNNNper) := by
  intro x hx
  obtain ⟨f, f1, f2, f3⟩ := C73_neel_dressing E sqrt solve fuel I c hc hW hH dets hsol hb hn ham hd hin eigvects tol maxIter r h x hx
  obtain ⟨g, g1, g2⟩ := C59_every_iteration E sqrt solve fuel I c hc dets hsol hb hn ham hd eigvects tol maxIter r h x hx
  have law : ∀ s < 2 * (c.nbh + c.nbv) * c.nblocs, ∀ o, 0 ≤ f o s ∧ f o s ≤ 1 := by
    intro s hs o
    obtain ⟨u1, u2⟩ := g2 s hs
    rw [law_unique f1 g1 o s hs]
    refine ⟨u2 o, ?_⟩
    have := u2 .hole; have := u2 .down; have := u2 .up
    cases o <;> linarith
  have em : 2 * (c.nbh + c.nbv) * c.nblocs = 2 * (c.nbh * c.nblocs + c.nbv * c.nblocs) := by ring
  have en : c.nsites = c.nbh * c.nblocs * (c.nbv * c.nblocs) := by
    obtain ⟨_, _, q⟩ := neelGeom hc
    exact q.rows
  rw [em, en] at f3
  rw [em] at law
  have bd : ∀ i (hi : i < dets.length), - (I.J / 2 * (2 * (c.nbh + c.nbv) * c.nblocs : Nat)) ≤ x.ham.entry i i - ham.entry i i ∧
      x.ham.entry i i - ham.entry i i ≤ 2 * c.nholes * (I.VNN + I.VNNNper) := by
    intro i hi
    have := border_bounds hW hH I hJ hV hV' (occ c.nholes c.nbeta dets[i]) f law
    rw [f3 i i hi, if_pos rfl, add_sub_cancel_left, em]
    refine ⟨this.1, le_trans this.2 (le_of_eq ?_)⟩
    have hv := valid_getElem hb (List.getElem?_eq_getElem hi)
    have k1 := cnt_occ_hole hv hn
    have k2 : ((range (c.nbh * c.nblocs * (c.nbv * c.nblocs))).filter fun a => occ c.nholes c.nbeta dets[i] a = .hole).card =
      cnt c.nsites (occ c.nholes c.nbeta dets[i]) .hole := by rw [en]; rfl
    rw [k2, k1]
  have off : ∀ i j, i < dets.length → i ≠ j → x.ham.entry i j = ham.entry i j := by
    intro i j hi hij
    rw [f3 i j hi, if_neg hij, add_zero]
  clear hx f3 hin
  obtain ⟨xm, xp, xg⟩ := x
  obtain ⟨d, M⟩ := ham
  obtain ⟨d', M'⟩ := xm
  obtain rfl : d = d' := f2.symm
  have eM : (SpMat.mk d M' : SpMat K).toMatrix =
      (SpMat.mk d M : SpMat K).toMatrix + diagonal (fun i : Fin d => (SpMat.mk d M' : SpMat K).entry i i - (SpMat.mk d M : SpMat K).entry i i) := by
    ext i j
    rw [Matrix.add_apply, diagonal_apply]
    have hi : (i : Nat) < dets.length := lt_of_lt_of_eq i.2 hd
    by_cases hij : i = j
    · subst hij
      rw [if_pos rfl]
      show _ = (SpMat.mk d M : SpMat K).entry i i + _
      rw [add_sub_cancel]
      rfl
    · rw [if_neg hij, add_zero]
      exact off i j hi (fun h => hij (Fin.ext h))
  have hs' : (SpMat.mk d M' : SpMat K).toMatrix.IsSymm := by
    rw [eM]
    exact hsym.add (isSymm_diagonal _)
  refine ⟨rfl, hs', fun e' w' hw' hwo' he' k hk hk' => ?_⟩
  have form : ∀ z : Fin d → K, z ⬝ᵥ ((SpMat.mk d M' : SpMat K).toMatrix *ᵥ z) = z ⬝ᵥ ((SpMat.mk d M : SpMat K).toMatrix *ᵥ z) +
      ∑ i : Fin d, ((SpMat.mk d M' : SpMat K).entry i i - (SpMat.mk d M : SpMat K).entry i i) * (z i * z i) := by
    intro z
    rw [eM, add_mulVec, dotProduct_add]
    congr 1
    rw [dotProduct]
    refine sum_congr rfl fun i _ => ?_
    rw [mulVec_diagonal]
    ring
  have low : ∀ z : Fin d → K, - (I.J / 2 * (2 * (c.nbh + c.nbv) * c.nblocs : Nat)) * (z ⬝ᵥ z) ≤
      ∑ i : Fin d, ((SpMat.mk d M' : SpMat K).entry i i - (SpMat.mk d M : SpMat K).entry i i) * (z i * z i) := by
    intro z
    rw [dotProduct, mul_sum]
    exact sum_le_sum fun i _ => mul_le_mul_of_nonneg_right (bd i (lt_of_lt_of_eq i.2 hd)).1 (mul_self_nonneg _)
  have up : ∀ z : Fin d → K, (∑ i : Fin d, ((SpMat.mk d M' : SpMat K).entry i i - (SpMat.mk d M : SpMat K).entry i i) * (z i * z i)) ≤
      2 * c.nholes * (I.VNN + I.VNNNper) * (z ⬝ᵥ z) := by
    intro z
    rw [dotProduct, mul_sum]
    exact sum_le_sum fun i _ => mul_le_mul_of_nonneg_right (bd i (lt_of_lt_of_eq i.2 hd)).2 (mul_self_nonneg _)
  have r1 := eigen_sorted hsym hw hwo hw' hwo' he he' (I.J / 2 * (2 * (c.nbh + c.nbv) * c.nblocs : Nat)) (fun z => by
    rw [form z]; have := low z; linarith) ⟨k, hk⟩
  have r2 := eigen_sorted hs' hw' hwo' hw hwo he' he (2 * c.nholes * (I.VNN + I.VNNNper)) (fun z => by
    rw [form z]; have := up z; linarith) ⟨k, hk⟩
  exact ⟨by linarith, r2⟩

end

/-- C116. Without holes the embedding never raises an energy. -/
theorem C116_no_holes (E : Env) (sqrt : ℝ → ℝ) (solve : Solver ℝ) (fuel : Nat) (I : Interactions ℝ) (hJ : 0 ≤ I.J) (hV : 0 ≤ I.VNN)
    (hV' : 0 ≤ I.VNNNper) (c : Config)
    (hc : RectConf c c.nbh c.nbv c.nblocs) (hW : 2 ≤ c.nbh * c.nblocs) (hH : 2 ≤ c.nbv * c.nblocs) (dets : List (List Nat))
    (hsol : solve.Good dets.length) (hb : constructBasis c = .ok dets) (hn : c.nholes + c.nbeta ≤ c.nsites) (h0 : c.nholes = 0) (ham : SpMat ℝ)
    (hd : ham.dim = dets.length)
    (hin : ∀ t ∈ ham.coo, t.2.1 < ham.dim ∧ t.2.2 < ham.dim) (hsym : ham.toMatrix.IsSymm) (eigvects : List (List ℝ)) (tol : ℝ) (maxIter : Nat)
    (r : NeelResult ℝ) (h : embeddingNeel E sqrt solve fuel I c dets ham eigvects tol maxIter = .ok r)
    (e : Fin ham.dim → ℝ) (w : Fin ham.dim → Fin ham.dim → ℝ) (hw : ∀ k, ham.toMatrix *ᵥ w k = e k • w k)
    (hwo : ∀ i j, w i ⬝ᵥ w j = if i = j then 1 else 0) (he : Monotone e) :
    ∀ x ∈ r.trace, ∃ (e' : Fin x.ham.dim → ℝ) (w' : Fin x.ham.dim → Fin x.ham.dim → ℝ),
      (∀ k, x.ham.toMatrix *ᵥ w' k = e' k • w' k) ∧ (∀ i j, w' i ⬝ᵥ w' j = if i = j then 1 else 0) ∧ Monotone e' ∧
      ∀ k (hk : k < ham.dim) (hk' : k < x.ham.dim), e' ⟨k, hk'⟩ ≤ e ⟨k, hk⟩ := by
  intro x hx
  obtain ⟨s1, s2, s3⟩ := C116_shift E sqrt solve fuel I hJ hV hV' c hc hW hH dets hsol hb hn ham hd hin hsym eigvects tol maxIter r h e w hw hwo he x hx
  obtain ⟨e', w', a1, a2, a3⟩ := exists_sorted _ s2
  refine ⟨e', w', a1, a2, a3, fun k hk hk' => ?_⟩
  have := (s3 e' w' a1 a2 a3 k hk hk').2
  rw [h0] at this
  simpa using this

/-- C116. The energies that `embedding_neel` returns are not below those of the isolated block by more than `J/2` per border site: with exact library
functions and at least two energies asked for. -/
theorem C116_returned (E : Env) (sqrt : ℝ → ℝ) (L : Nat → LinAlg ℝ) (hq : ∀ k, (L k).ExactQr) (hei : ∀ k, (L k).ExactEigh)
    (he0 : ∀ k n M i, ((L k).eigh n M).2 i ≠ 0) (fuel : Nat) (I : Interactions ℝ) (hJ : 0 ≤ I.J) (hV : 0 ≤ I.VNN)
    (hV' : 0 ≤ I.VNNNper) (c : Config)
    (hc : RectConf c c.nbh c.nbv c.nblocs) (hW : 2 ≤ c.nbh * c.nblocs) (hH : 2 ≤ c.nbv * c.nblocs) (dets : List (List Nat))
    (hb : constructBasis c = .ok dets) (hn : c.nholes + c.nbeta ≤ c.nsites) (ham : SpMat ℝ) (hd : ham.dim = dets.length)
    (hin : ∀ t ∈ ham.coo, t.2.1 < ham.dim ∧ t.2.2 < ham.dim) (hsym : ham.toMatrix.IsSymm) (eigvects : List (List ℝ)) (tolSelf : ℝ) (maxIter : Nat)
    (nbVal stp dimMax : Nat) (hnb : 1 < min nbVal (if dimMax = 0 then dets.length else dimMax)) (tol : ℝ)
    (r : NeelResult ℝ) (h : embeddingNeel E sqrt (davidsonSolver L nbVal none stp tol dimMax) fuel I c dets ham eigvects tolSelf maxIter = .ok r)
    (e : Fin ham.dim → ℝ) (w : Fin ham.dim → Fin ham.dim → ℝ) (hw : ∀ k, ham.toMatrix *ᵥ w k = e k • w k)
    (hwo : ∀ i j, w i ⬝ᵥ w j = if i = j then 1 else 0) (he : Monotone e) :
    r.ham = ham ∧ ∀ k (hk : k < r.eigvals.length) (hk' : k < ham.dim),
      e ⟨k, hk'⟩ - I.J / 2 * (2 * (c.nbh + c.nbv) * c.nblocs : Nat) ≤ r.eigvals[k] := by
  obtain ⟨h1, kk, x, h2, h3⟩ := C79_neel_isolated E sqrt _ fuel I c dets ham eigvects tolSelf maxIter r h
  have good := C92_nonzero_vectors L hq he0 nbVal none stp tol dimMax dets.length (fun h => by omega)
  obtain ⟨s1, s2, s3⟩ := C116_shift E sqrt _ fuel I hJ hV hV' c hc hW hH dets good hb hn ham hd hin hsym eigvects tolSelf maxIter r h e w hw hwo he x
    (List.mem_of_getLast? h2)
  refine ⟨h1, fun k hk hk' => ?_⟩
  obtain ⟨q, q1, q2⟩ := bind_eq_ok.1 h3
  have q3 : q.eigvals = r.eigvals := (Prod.mk.inj (Except.ok.inj q2)).1
  obtain ⟨e', w', a1, a2, a3⟩ := exists_sorted _ s2
  have up := C99_upper_bounds (L kk) (hei kk) (hq kk) x.ham.toMatrix s2 nbVal _ stp tol dimMax q q1
    (Or.inl (by rw [s1, hd]; exact hnb)) e' w' a1 a2 k (by rw [q3]; exact hk)
  have hk2 : k < x.ham.dim := by omega
  refine le_trans (s3 e' w' a1 a2 a3 k hk' hk2).1 ?_
  by_contra hlt
  have : (univ.filter fun j => e' j ≤ q.eigvals[k]'(by rw [q3]; exact hk)) ⊆ Finset.Iio ⟨k, hk2⟩ := by
    intro j hj
    simp only [mem_filter, mem_univ, true_and] at hj
    rw [mem_Iio]
    by_contra hkj
    simp only [q3] at hj
    exact hlt (le_trans (a3 (not_lt.1 hkj)) hj)
  have := card_le_card this
  rw [Fin.card_Iio] at this
  simp only at this
  omega

/-- The 2 x 2 block with a hole and a down spin in its border: the run returns, and the returned energies are bounded by those of the block. -/
example (E : Env) : ∃ (ham : SpMat ℝ) (r : NeelResult ℝ) (e : Fin ham.dim → ℝ) (w : Fin ham.dim → Fin ham.dim → ℝ),
    (∀ k, ham.toMatrix *ᵥ w k = e k • w k) ∧ Monotone e ∧ ham.dim = 12 ∧
    embeddingNeel E Real.sqrt (davidsonSolver (fun _ => realLib) 3 none 3 (1 / 1000) 0) 1 exRaised.1 (rectConf 1 1 2 1 1) (basisList 4 1 1) ham
      [List.replicate 12 1] (1 / 1000) 5 = .ok r ∧
    ∀ k (hk : k < r.eigvals.length) (hk' : k < ham.dim), e ⟨k, hk'⟩ - exRaised.1.J / 2 * (8 : Nat) ≤ r.eigvals[k] := by
  have hc := rectConf_ok 1 1 2 1 1 (by decide) (by decide) (by decide)
  have hf : (rectConf 1 1 2 1 1).Full := by unfold Config.Full; decide +kernel
  have hn : (rectConf 1 1 2 1 1).nholes + (rectConf 1 1 2 1 1).nbeta ≤ (rectConf 1 1 2 1 1).nsites := by decide +kernel
  have hb : constructBasis (rectConf 1 1 2 1 1) = .ok (basisList 4 1 1) := constructBasis_eq _
  have hl : (basisList 4 1 1).length = 12 := by decide +kernel
  obtain ⟨ham, h1, h2, h3, _⟩ := buildHamiltonian_spec exRaised.1 (hc.tj E) hf hn hb ⟨true, true, true, true, true, true⟩ [] false
  have hsym := (built_form hc hf hn hb h1).2.1
  obtain ⟨e, w, a1, a2, a3⟩ := exists_sorted _ hsym
  have pos : 0 ≤ exRaised.1.J ∧ 0 ≤ exRaised.1.VNN ∧ 0 ≤ exRaised.1.VNNNper := by norm_num [exRaised]
  have hin : ∀ t ∈ ham.coo, t.2.1 < ham.dim ∧ t.2.2 < ham.dim := by
    rw [h2]; exact h3
  obtain ⟨r, hr⟩ := C92_neel_returns E Real.sqrt (fun _ => realLib) (fun _ => realLib_qr) (fun _ => realLib_ne_zero) (fun _ => realLib_rand)
    (fun _ => realLib_rand_ne_zero) 0 exRaised.1 (rectConf 1 1 2 1 1) hc (by decide) (by decide) (basisList 4 1 1) hb hn ham h2 hin
    (List.replicate 12 1) (by rw [hl]; simp) [] 3 3 0 (by omega) (by omega) (by omega) (1 / 1000) (1 / 1000) 5 (by omega)
  refine ⟨ham, r, e, w, a1, a3, by rw [h2, hl], hr, ?_⟩
  exact (C116_returned E Real.sqrt (fun _ => realLib) (fun _ => realLib_qr) (fun _ => realLib_eigh) (fun _ => realLib_ne_zero) 1 exRaised.1 pos.1
    pos.2.1 pos.2.2 (rectConf 1 1 2 1 1) hc (by decide) (by decide) (basisList 4 1 1) hb hn ham h2 hin hsym _ (1 / 1000) 5 3 3 0
    (by rw [hl]; decide) (1 / 1000) r hr e w a1 a2 a3).2

end TJ
