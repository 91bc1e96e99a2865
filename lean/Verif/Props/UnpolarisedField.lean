/-
Property C137: blocks with as many up as down spins give each other no magnetic field in `embedding_blocks`.
-/
import Verif.Props.DominantPairs
import Verif.Props.BlocksShift
import Verif.Props.Extensive

namespace TJ
open Finset Matrix

section
variable {K : Type} [Field K] [LinearOrder K] [IsStrictOrderedRing K]

/-- A state whose moduli are kept by the reversal of all spins has up and down with the same probability. -/
theorem born_reversed {n : Nat} (φ : Conf n → K) (h : ∀ σ, |φ σ.rev| = |φ σ|) (s : Fin n) (o : Occ) : born φ s o.rev = born φ s o := by
  unfold born
  congr 1
  rw [← Equiv.sum_comp revEquiv]
  refine sum_congr rfl fun σ _ => ?_
  have e1 : revEquiv σ = σ.rev := rfl
  have e2 : σ.rev s = (σ s).rev := rfl
  have e3 : φ σ.rev * φ σ.rev = φ σ * φ σ := by rw [← abs_mul_abs_self, h, abs_mul_abs_self]
  have e4 : (σ s).rev = o.rev ↔ σ s = o := by cases σ s <;> cases o <;> simp [Occ.rev]
  rw [e1, e2, e3]
  simp only [e4]

/-- Without holes both have probability one half. -/
theorem born_half {c : Config} {dets : List (List Nat)} (hb : constructBasis c = .ok dets) (h0 : c.nholes = 0) (hn : c.nbeta ≤ c.nsites)
    (v : List K) (hv : v.length = dets.length) (hx : ∃ x ∈ v, x ≠ 0) (h : ∀ σ : Conf c.nsites, |amp c dets v σ.rev| = |amp c dets v σ|) (s : Fin c.nsites) :
    born (amp c dets v) s .up = 1 / 2 ∧ born (amp c dets v) s .down = 1 / 2 ∧ born (amp c dets v) s .hole = 0 := by
  have hn' : c.nholes + c.nbeta ≤ c.nsites := by omega
  have e1 : born (amp c dets v) s .down = born (amp c dets v) s .up := born_reversed _ h s .up
  have e2 : born (amp c dets v) s .hole = 0 := by
    unfold born
    rw [sum_eq_zero, zero_div]
    intro σ _
    split_ifs with hs
    · rw [amp_outside hb hn' v, mul_zero]
      rintro ⟨h1, _⟩
      rw [h0, Conf.count, card_eq_zero, filter_eq_empty_iff] at h1
      exact h1 (mem_univ s) hs
    · rfl
  have e3 : (∑ σ, amp c dets v σ * amp c dets v σ) ≠ 0 := by
    intro hs
    obtain ⟨x, hx, hx0⟩ := hx
    obtain ⟨k, hk, rfl⟩ := List.mem_iff_getElem.1 hx
    have := (sum_eq_zero_iff_of_nonneg (fun σ _ => mul_self_nonneg (amp c dets v σ))).1 hs (conf c (dets[k]'(by omega))) (mem_univ _)
    rw [amp_conf hb v (by omega), mul_self_eq_zero, List.getD_eq_getElem _ _ hk] at this
    exact hx0 this
  have e4 := born_sum (amp c dets v) s e3
  rw [e1, e2] at e4
  refine ⟨by linarith, by linarith, e2⟩

/-- C137. With as many up as down spins, every site of a state whose energy is not degenerate is up and down with the same probability. -/
theorem C137_densities (E : Env) (c : Config) (nbh nbv nb : Nat) (hc : RectConf c nbh nbv nb)
    (hf : c.Full) (hn : c.nholes + 2 * c.nbeta = c.nsites) (I : Interactions K) (B : BoolInteractions) (r : List Nat) (vb : Bool)
    (dets : List (List Nat)) (hb : constructBasis c = .ok dets) (H : SpMat K) (hH : buildHamiltonian E c I dets B r vb = .ok H) (μ : K)
    (h1 : Module.finrank K (Module.End.eigenspace (Matrix.toLin' H.toMatrix) μ) = 1)
    (x : Fin H.dim → K) (hx : x ≠ 0) (hev : Matrix.mulVec H.toMatrix x = μ • x) :
    ∃ P Q : List K, P.length = c.nsites ∧ Q.length = c.nsites ∧
      spinsProbabilities c dets (List.ofFn x) = .ok [(-1, P), (0, Q), (1, P)] ∧
      spinsProbabilities c dets (List.ofFn x) true = .ok [(-1, P), (0, Q), (1, P)] ∧
      ∀ s : Fin c.nsites, 2 * P.getD s 0 + Q.getD s 0 = 1 := by
  have hn' : c.nholes + c.nbeta ≤ c.nsites := by omega
  obtain ⟨H', g1, hd, _, _⟩ := buildHamiltonian_spec I (hc.tj E) hf hn' hb B r vb
  obtain rfl := Except.ok.inj (hH.symm.trans g1)
  have hl : (List.ofFn x).length = dets.length := by rw [List.length_ofFn, hd]
  obtain ⟨P, p1, p2, p3, p4⟩ := spins_eq hb hn' (List.ofFn x) hl
  have hrev := simple_reversed E c nbh nbv nb hc hf hn I B r vb dets hb H hH μ h1 x hx hev
  have e1 : P .down = P .up := by
    refine List.ext_getElem (by rw [p3, p3]) fun i i1 i2 => ?_
    have hi : i < c.nsites := by rwa [p3] at i1
    have a1 := p4 .down ⟨i, hi⟩
    have a2 := p4 .up ⟨i, hi⟩
    rw [List.getD_eq_getElem _ _ i1] at a1
    rw [List.getD_eq_getElem _ _ i2] at a2
    rw [a1, a2]
    exact born_reversed _ hrev _ .up
  rw [e1] at p1 p2
  refine ⟨P .up, P .hole, p3 _, p3 _, p1, p2, fun s => ?_⟩
  have e3 : (∑ σ, amp c dets (List.ofFn x) σ * amp c dets (List.ofFn x) σ) ≠ 0 := by
    intro hs
    refine hx (funext fun k => ?_)
    have hk : k.1 < dets.length := hd ▸ k.2
    have := (sum_eq_zero_iff_of_nonneg (fun σ _ => mul_self_nonneg (amp c dets (List.ofFn x) σ))).1 hs (conf c dets[k.1]) (mem_univ _)
    rw [amp_conf hb _ hk, mul_self_eq_zero, List.getD_eq_getElem _ _ (by rw [hl]; exact hk), List.getElem_ofFn] at this
    exact this
  have e4 := born_sum (amp c dets (List.ofFn x)) s e3
  rw [← p4, ← p4, ← p4, e1] at e4
  linarith

end

/-! ### The field of the neighbours -/

/-- The pairs of a site of the block and a site of the block on its right that touch: one for each row. -/
theorem facing_pairs {W H : Nat} (hW : 1 ≤ W) {place : Nat → Pt} (hp : ∀ a < W * H, 0 ≤ (place a).1 ∧ (place a).1 < W ∧ 0 ≤ (place a).2 ∧ (place a).2 < H)
    (hi : ∀ a < W * H, ∀ b < W * H, place a = place b → a = b) (x : ℝ) :
    ∑ a ∈ range (W * H), ∑ r ∈ range (W * H), (if Near (place a) ((gridPos W r).1 + (W : Nat), (gridPos W r).2) then x else 0) = H * x := by
  have hsurj : (range (W * H)).image place = (range (W * H)).image (gridPos W) := by
    refine eq_of_subset_of_card_le ?_ ?_
    · intro p h
      obtain ⟨a, ha, rfl⟩ := mem_image.1 h
      have := hp a (mem_range.1 ha)
      obtain ⟨s, s1, s2⟩ := gridPos_surj this.1 this.2.1 this.2.2.1 this.2.2.2
      exact mem_image.2 ⟨s, mem_range.2 s1, s2⟩
    · rw [card_image_of_injective _ (fun a b h => gridPos_inj h), card_image_of_injOn]
      intro a ha b hb h
      exact hi a (mem_range.1 ha) b (mem_range.1 hb) h
  have hA : ∀ y : Nat, ∃ a, y < H → a < W * H ∧ place a = ((W : Int) - 1, (y : Int)) := by
    intro y
    by_cases hy : y < H
    · obtain ⟨s, s1, s2⟩ := gridPos_surj (W := W) (H := H) (x := (W : Int) - 1) (y := (y : Int)) (by omega) (by omega) (by omega) (by omega)
      have : gridPos W s ∈ (range (W * H)).image place := by rw [hsurj]; exact mem_image.2 ⟨s, mem_range.2 s1, rfl⟩
      obtain ⟨a, a1, a2⟩ := mem_image.1 this
      exact ⟨a, fun _ => ⟨mem_range.1 a1, a2.trans s2⟩⟩
    · exact ⟨0, fun h => absurd h hy⟩
  have hR : ∀ y : Nat, ∃ r, y < H → r < W * H ∧ gridPos W r = ((0 : Int), (y : Int)) := by
    intro y
    by_cases hy : y < H
    · obtain ⟨s, s1, s2⟩ := gridPos_surj (W := W) (H := H) (x := (0 : Int)) (y := (y : Int)) (by omega) (by omega) (by omega) (by omega)
      exact ⟨s, fun _ => ⟨s1, s2⟩⟩
    · exact ⟨0, fun h => absurd h hy⟩
  choose A hA using hA
  choose R hR using hR
  rw [← sum_product', ← sum_filter, sum_const, nsmul_eq_mul]
  have hcard : (range H).card = ((range (W * H) ×ˢ range (W * H)).filter fun p =>
      Near (place p.1) ((gridPos W p.2).1 + (W : Nat), (gridPos W p.2).2)).card := ?_
  · rw [← hcard, card_range]
  refine card_bij (fun y _ => (A y, R y)) ?_ ?_ ?_
  · intro y hy
    obtain ⟨a1, a2⟩ := hA y (mem_range.1 hy)
    obtain ⟨r1, r2⟩ := hR y (mem_range.1 hy)
    refine mem_filter.2 ⟨mem_product.2 ⟨mem_range.2 a1, mem_range.2 r1⟩, ?_⟩
    dsimp only
    rw [a2, r2]
    unfold Near
    dsimp only
    omega
  · intro y hy y' hy' h
    have a2 := (hA y (mem_range.1 hy)).2
    have a2' := (hA y' (mem_range.1 hy')).2
    have h' : A y = A y' := (Prod.ext_iff.1 h).1
    rw [h'] at a2
    have := (Prod.ext_iff.1 (a2.symm.trans a2')).2
    dsimp only at this
    omega
  · rintro ⟨a, r⟩ h
    obtain ⟨h1, h2⟩ := mem_filter.1 h
    obtain ⟨ha, hr⟩ := mem_product.1 h1
    have ha := mem_range.1 ha
    have hr := mem_range.1 hr
    dsimp only at ha hr h2
    have pa := hp a ha
    have g := gridPos_range hW hr
    unfold Near at h2
    dsimp only at h2
    have hy : (place a).2.toNat < H := by omega
    refine ⟨(place a).2.toNat, mem_range.2 hy, ?_⟩
    obtain ⟨a1, a2⟩ := hA _ hy
    obtain ⟨r1, r2⟩ := hR _ hy
    refine Prod.ext (hi _ a1 _ ha ?_) (gridPos_inj (W := W) ?_)
    · rw [a2]; exact Prod.ext (by dsimp only; omega) (by dsimp only; omega)
    · dsimp only; rw [r2]; exact Prod.ext (by dsimp only; omega) (by dsimp only; omega)

/-- The sites of the block that face a site of a neighbouring block, counted once for each side. -/
def facing (c : Config) (neighbor : Bool) : Nat := if neighbor then c.nbv * c.nblocs else 4 * (c.nbv * c.nblocs)

/-- C137. Without holes, a neighbour in a state whose moduli are kept by the reversal of all spins adds the same constant to every diagonal entry,
`-J/4` for each facing site, whether its spins are reversed or not. -/
theorem C137_field (I : Interactions ℝ) (c : Config) (hc : RectConf c c.nbh c.nbv c.nblocs) (h0 : c.nholes = 0) (hn : c.nbeta ≤ c.nsites)
    (dets : List (List Nat)) (hb : constructBasis c = .ok dets) (o : BlockOptions ℝ) (ho : o.dynamic = false)
    (hsq : o.neighbor = false → c.nbh * c.nblocs = c.nbv * c.nblocs) (gs : List ℝ) (hl : gs.length = dets.length) (hx : ∃ x ∈ gs, x ≠ 0)
    (h : ∀ σ : Conf c.nsites, |amp c dets gs σ.rev| = |amp c dets gs σ|) (en : ℝ) (i j : Nat) (hi : i < dets.length) :
    addedField I c dets o gs en i j = if i = j then - (I.J / 4) * facing c o.neighbor else 0 := by
  have hn' : c.nholes + c.nbeta ≤ c.nsites := by omega
  have hW : 1 ≤ c.nbh * c.nblocs := Nat.mul_pos hc.hh hc.hb
  have en' : c.nsites = c.nbh * c.nblocs * (c.nbv * c.nblocs) := by
    obtain ⟨_, _, q⟩ := neelGeom hc
    exact q.rows
  unfold addedField
  rw [ho]
  simp only [Bool.false_eq_true, if_false, add_zero]
  by_cases hij : i = j
  swap
  · rw [if_neg hij, if_neg hij]
  rw [if_pos hij, if_pos hij, List.getD_eq_getElem dets [] hi]
  have hlaw : ∀ o' r, r < c.nsites → neighbourLaw c dets o.reverse gs o' r = if o' = .hole then 0 else 1 / 2 := by
    intro o' r hr
    unfold neighbourLaw
    rw [dif_pos hr]
    obtain ⟨b1, b2, b3⟩ := born_half hb h0 hn gs hl hx h ⟨r, hr⟩
    cases o' <;> cases o.reverse <;> simp [Occ.rev, b1, b2, b3]
  have hocc : ∀ a < c.nsites, occ c.nholes c.nbeta dets[i] a ≠ .hole := by
    intro a ha e
    have := count_conf_hole hn' (canonical_getElem hb i hi).1
    rw [h0, Conf.count, card_eq_zero, filter_eq_empty_iff] at this
    exact this (mem_univ (⟨a, ha⟩ : Fin c.nsites)) e
  have key : ∀ place : Nat → Pt, (∀ a < c.nbh * c.nblocs * (c.nbv * c.nblocs),
      0 ≤ (place a).1 ∧ (place a).1 < (c.nbh * c.nblocs : Nat) ∧ 0 ≤ (place a).2 ∧ (place a).2 < (c.nbv * c.nblocs : Nat)) →
      (∀ a < c.nbh * c.nblocs * (c.nbv * c.nblocs), ∀ b < c.nbh * c.nblocs * (c.nbv * c.nblocs), place a = place b → a = b) →
      rightEnergy I c dets o.reverse gs place dets[i] = (c.nbv * c.nblocs : Nat) * (- (I.J / 4)) := by
    intro place hp hi'
    rw [← facing_pairs hW hp hi' (- (I.J / 4)), ← en']
    unfold rightEnergy borderEnergy
    refine sum_congr rfl fun a ha => sum_congr rfl fun r hr => ?_
    have k1 := hocc a (mem_range.1 ha)
    have k2 := fun o' => hlaw o' r (mem_range.1 hr)
    have e1 : cornerEnergy I (occ c.nholes c.nbeta dets[i] a) (fun o' => neighbourLaw c dets o.reverse gs o' r) = 0 := by
      generalize occ c.nholes c.nbeta dets[i] a = z at k1
      cases z
      · exact absurd rfl k1
      · rfl
      · rfl
    have e2 : bondEnergy I (occ c.nholes c.nbeta dets[i] a) (fun o' => neighbourLaw c dets o.reverse gs o' r) = - (I.J / 4) := by
      generalize occ c.nholes c.nbeta dets[i] a = z at k1
      cases z
      · exact absurd rfl k1
      · show - (I.J / 2) * neighbourLaw c dets o.reverse gs .up r = _
        rw [k2, if_neg (by simp)]; ring
      · show - (I.J / 2) * neighbourLaw c dets o.reverse gs .down r = _
        rw [k2, if_neg (by simp)]; ring
    rw [e1, e2, ite_self, add_zero]
  cases hnb : o.neighbor with
  | true =>
    rw [if_pos rfl, key _ (fun a ha => gridPos_range hW ha) (fun a _ b _ h => gridPos_inj h)]
    unfold facing
    rw [if_pos rfl]
    ring
  | false =>
    rw [if_neg (by simp)]
    have s1 := hsq hnb
    rw [sum_congr rfl (g := fun _ => ((c.nbv * c.nblocs : Nat) : ℝ) * (- (I.J / 4)))]
    · unfold facing
      rw [sum_const, card_range, nsmul_eq_mul, if_neg (by simp)]
      push_cast
      ring
    · intro q hq
      refine key _ (fun a ha => ?_) (fun a _ b _ h => gridPos_inj (turn_pow_inj q h))
      have g := gridPos_range hW ha
      set L := c.nbh * c.nblocs with hL
      generalize gridPos L a = p at g ⊢
      rw [← s1] at g ⊢
      have hq := mem_range.1 hq
      obtain rfl | rfl | rfl | rfl : q = 0 ∨ q = 1 ∨ q = 2 ∨ q = 3 := by omega
      · show 0 ≤ p.1 ∧ p.1 < L ∧ 0 ≤ p.2 ∧ p.2 < L
        exact g
      · show 0 ≤ p.2 ∧ p.2 < L ∧ 0 ≤ (L : Int) - 1 - p.1 ∧ (L : Int) - 1 - p.1 < L
        omega
      · show 0 ≤ (L : Int) - 1 - p.1 ∧ (L : Int) - 1 - p.1 < L ∧ 0 ≤ (L : Int) - 1 - p.2 ∧ (L : Int) - 1 - p.2 < L
        omega
      · show 0 ≤ (L : Int) - 1 - p.2 ∧ (L : Int) - 1 - p.2 < L ∧ 0 ≤ (L : Int) - 1 - (L - 1 - p.1) ∧ (L : Int) - 1 - (L - 1 - p.1) < L
        omega

/-! ### The run -/

section
variable {D : Data ℝ} {dets : List (List Nat)}

/-- No normalised state of the isolated block has a lower energy. -/
def Lowest (D : Data ℝ) (dets : List (List Nat)) (gs : List ℝ) : Prop :=
  ∀ v : List ℝ, v.length = dets.length → ∑ i ∈ range dets.length, v.getD i 0 ^ 2 = 1 → isolatedEnergy D dets gs ≤ isolatedEnergy D dets v

theorem ofFn_getD {n m : Nat} (hd : m = n) (v : List ℝ) (hv : v.length = n) : List.ofFn (fun i : Fin m => v.getD i 0) = v := by
  refine List.ext_getElem (by rw [List.length_ofFn, hv, hd]) fun i i1 i2 => ?_
  rw [List.getElem_ofFn, List.getD_eq_getElem _ _ i2]

/-- In an antiferromagnetic block without holes and with as many up as down spins, the states of lowest energy differ by a sign, and keep their moduli when all spins are
reversed. -/
theorem lowest_sign (E : Env) (hc : RectConf D.config D.config.nbh D.config.nbv D.config.nblocs) (hf : D.config.Full) (h0 : D.config.nholes = 0)
    (hn : 2 * D.config.nbeta = D.config.nsites) (hJ : 0 < D.interactions.J) (hij : D.bools.bij = true)
    (hb : constructBasis D.config = .ok dets) (gs : List ℝ) (hl : gs.length = dets.length) (hnorm : ∑ i ∈ range dets.length, gs.getD i 0 ^ 2 = 1)
    (hlow : Lowest D dets gs) (v : List ℝ) (hv : v.length = dets.length) (hvn : ∑ i ∈ range dets.length, v.getD i 0 ^ 2 = 1)
    (hle : isolatedEnergy D dets v ≤ isolatedEnergy D dets gs) :
    (v = gs ∨ v = gs.map (fun z => - z)) ∧ ∀ σ : Conf D.config.nsites, |amp D.config dets v σ.rev| = |amp D.config dets v σ| := by
  have hn1 : D.config.nbeta ≤ D.config.nsites := by omega
  have hn' : D.config.nholes + D.config.nbeta ≤ D.config.nsites := by omega
  obtain ⟨H, hH, hd, _, _⟩ := buildHamiltonian_spec D.interactions (hc.tj E) hf hn' hb D.bools [] true
  have hel := C31_matrix_elements E D.config _ _ _ hc hf hn' D.interactions D.bools [] true dets hb H hH
  have hsym : H.toMatrix.IsSymm := by
    ext i j
    exact C32_symmetric E D.config _ _ _ hc hf hn' D.interactions D.bools [] true dets hb H hH j i
  have form := fun q : Fin H.dim → ℝ => sum_forms hd H.toMatrix (fun i j => hamEl D.interactions (fun s => gridPos (D.config.nbh * D.config.nblocs) s) D.bools
    (conf D.config (dets.getD i [])) (conf D.config (dets.getD j []))) (fun i j => by
      have hi : i.1 < dets.length := hd ▸ i.2
      have hj : j.1 < dets.length := hd ▸ j.2
      rw [List.getD_eq_getElem dets [] hi, List.getD_eq_getElem dets [] hj]
      exact hel i j hi hj) q
  have energy : ∀ q : Fin H.dim → ℝ, isolatedEnergy D dets (List.ofFn q) = q ⬝ᵥ (H.toMatrix *ᵥ q) := fun q => (form q).2
  set e := isolatedEnergy D dets gs with he
  have hmin : ∀ x : Fin H.dim → ℝ, e * (x ⬝ᵥ x) ≤ x ⬝ᵥ (H.toMatrix *ᵥ x) := by
    intro x
    by_cases hx : x = 0
    · rw [hx]; simp
    have hpos : 0 < x ⬝ᵥ x := by
      rcases lt_or_eq_of_le (show 0 ≤ x ⬝ᵥ x from sum_nonneg fun i _ => mul_self_nonneg (x i)) with h | h
      · exact h
      · exact absurd (dotProduct_self_eq_zero.1 h.symm) hx
    set r := Real.sqrt (x ⬝ᵥ x) with hr
    have hr0 : r * r = x ⬝ᵥ x := Real.mul_self_sqrt hpos.le
    have hrp : 0 < r := Real.sqrt_pos.2 hpos
    have hy := hlow (List.ofFn (r⁻¹ • x)) (by rw [List.length_ofFn, hd]) (by
      rw [(form _).1, smul_dotProduct, dotProduct_smul, ← hr0, smul_eq_mul, smul_eq_mul]
      field_simp)
    rw [energy, mulVec_smul, smul_dotProduct, dotProduct_smul, smul_eq_mul, smul_eq_mul] at hy
    have := mul_le_mul_of_nonneg_right hy hpos.le
    rw [← hr0] at this ⊢
    refine le_trans this (le_of_eq ?_)
    field_simp
  have eigen : ∀ w : List ℝ, w.length = dets.length → ∑ i ∈ range dets.length, w.getD i 0 ^ 2 = 1 → isolatedEnergy D dets w ≤ e →
      ∃ q : Fin H.dim → ℝ, List.ofFn q = w ∧ q ⬝ᵥ q = 1 ∧ H.toMatrix *ᵥ q = e • q := by
    intro w w1 w2 w3
    have hq := ofFn_getD hd w w1
    have k1 := form (fun i => w.getD i 0)
    rw [hq] at k1
    refine ⟨fun i => w.getD i 0, hq, by rw [← k1.1, w2], eigen_of_min hsym hmin _ ?_⟩
    rw [← k1.2, ← k1.1, w2, mul_one]
    exact le_antisymm w3 (hlow w w1 w2)
  obtain ⟨q, q1, q2, q3⟩ := eigen gs hl hnorm le_rfl
  obtain ⟨p, p1, p2, p3⟩ := eigen v hv hvn hle
  have ne0 : ∀ z : Fin H.dim → ℝ, z ⬝ᵥ z = 1 → z ≠ 0 := fun z hz h => by rw [h] at hz; simp at hz
  obtain ⟨e', h1, h2⟩ := C109_unique E D.config _ _ _ hc hf h0 hn1 D.interactions hJ D.bools hij [] true dets hb H hH
  have hee : e' = e := by
    have : Module.End.HasEigenvalue (Matrix.toLin' H.toMatrix) e :=
      Module.End.hasEigenvalue_of_hasEigenvector (x := q) ⟨by rw [Module.End.mem_eigenspace_iff, Matrix.toLin'_apply]; exact q3, ne0 q q2⟩
    refine le_antisymm (h1.2 this) ?_
    obtain ⟨z, z1, z2⟩ := h1.1.exists_hasEigenvector
    rw [Module.End.mem_eigenspace_iff, Matrix.toLin'_apply] at z1
    have k := hmin z
    rw [z1, dotProduct_smul, smul_eq_mul] at k
    have hpos : 0 < z ⬝ᵥ z := by
      rcases lt_or_eq_of_le (show 0 ≤ z ⬝ᵥ z from sum_nonneg fun i _ => mul_self_nonneg (z i)) with h | h
      · exact h
      · exact absurd (dotProduct_self_eq_zero.1 h.symm) z2
    exact le_of_mul_le_mul_right k hpos
  rw [hee] at h2
  have mem : ∀ z : Fin H.dim → ℝ, H.toMatrix *ᵥ z = e • z → z ∈ Module.End.eigenspace (Matrix.toLin' H.toMatrix) e := fun z hz => by
    rw [Module.End.mem_eigenspace_iff, Matrix.toLin'_apply]; exact hz
  obtain ⟨t, ht⟩ := (finrank_eq_one_iff_of_nonzero' (⟨q, mem q q3⟩ : Module.End.eigenspace (Matrix.toLin' H.toMatrix) e)
    (fun h => ne0 q q2 (congrArg Subtype.val h))).1 h2 ⟨p, mem p p3⟩
  have ht : t • q = p := congrArg Subtype.val ht
  have ht2 : t * t = 1 := by
    rw [← ht, smul_dotProduct, dotProduct_smul, q2, smul_eq_mul, smul_eq_mul, mul_one] at p2
    exact p2
  constructor
  · rcases mul_self_eq_one_iff.1 ht2 with rfl | rfl
    · left
      rw [← p1, ← q1, ← ht, one_smul]
    · right
      rw [← p1, ← q1, ← ht, List.map_ofFn]
      congr 1
      funext i
      simp
  · rw [← p1]
    exact simple_reversed E D.config _ _ _ hc hf (by omega) D.interactions D.bools [] true dets hb H hH e h2 p (ne0 p p2) p3

/-- C137. In every iteration of `embedding_blocks` without dynamical effects, started with a state of lowest energy, the state is the first one up to its sign, and its energy
is that of the isolated block lowered by `J/4` for each facing site. -/
theorem C137_chain (E : Env) (hc : RectConf D.config D.config.nbh D.config.nbv D.config.nblocs) (hf : D.config.Full) (h0 : D.config.nholes = 0)
    (hn : 2 * D.config.nbeta = D.config.nsites) (hJ : 0 < D.interactions.J) (hij : D.bools.bij = true)
    (hb : constructBasis D.config = .ok dets) (o : BlockOptions ℝ) (ho : o.dynamic = false)
    (hsq : o.neighbor = false → D.config.nbh * D.config.nblocs = D.config.nbv * D.config.nblocs)
    (gs : List ℝ) (hl : gs.length = dets.length) (hnorm : ∑ i ∈ range dets.length, gs.getD i 0 ^ 2 = 1)
    (hlow : Lowest D dets gs) (l : List (ℝ × List ℝ)) : ∀ x : ℝ × List ℝ, (x.2 = gs ∨ x.2 = gs.map (fun z => - z)) →
    (x :: l).IsChain (FieldStep D dets o gs) → ∀ y ∈ l, (y.2 = gs ∨ y.2 = gs.map (fun z => - z)) ∧
      y.1 = isolatedEnergy D dets gs - D.interactions.J / 4 * facing D.config o.neighbor := by
  have norm_ne : ∀ w : List ℝ, w.length = dets.length → ∑ i ∈ range dets.length, w.getD i 0 ^ 2 = 1 → ∃ x ∈ w, x ≠ 0 := by
    intro w w1 w2
    by_contra hcon
    push Not at hcon
    rw [sum_eq_zero] at w2
    · exact zero_ne_one w2
    · intro i hi
      have hi : i < w.length := by rw [w1]; exact mem_range.1 hi
      rw [List.getD_eq_getElem _ _ hi, hcon _ (List.getElem_mem hi)]
      ring
  induction l with
  | nil => intro x _ _ y hy; cases hy
  | cons z l ih =>
    intro x hx hch
    rw [List.isChain_cons_cons] at hch
    obtain ⟨⟨s1, s2, s3, s4⟩, hch⟩ := hch
    have hx2 : x.2.length = dets.length := by rcases hx with h | h <;> rw [h] <;> simp [hl]
    have hsq2 : ∀ k, x.2.getD k 0 ^ 2 = gs.getD k 0 ^ 2 := by
      intro k
      rcases hx with h | h <;> rw [h]
      rw [List.getD_eq_getElem?_getD, List.getD_eq_getElem?_getD, List.getElem?_map]
      cases gs[k]? <;> simp
    have hxn : ∑ i ∈ range dets.length, x.2.getD i 0 ^ 2 = 1 := by
      rw [← hnorm]; exact sum_congr rfl fun i _ => hsq2 i
    have hxe : isolatedEnergy D dets x.2 ≤ isolatedEnergy D dets gs := by
      rcases hx with h | h <;> rw [h]
      unfold isolatedEnergy
      refine le_of_eq (sum_congr rfl fun i _ => sum_congr rfl fun j _ => ?_)
      have : ∀ k, (gs.map (fun z => - z)).getD k 0 = - gs.getD k 0 := fun k => by
        rw [List.getD_eq_getElem?_getD, List.getD_eq_getElem?_getD, List.getElem?_map]
        cases gs[k]? <;> simp
      rw [this, this]
      ring
    have hrev := (lowest_sign E hc hf h0 hn hJ hij hb gs hl hnorm hlow x.2 hx2 hxn hxe).2
    have F := C137_field D.interactions D.config hc h0 (by omega) dets hb o ho hsq x.2 hx2 (norm_ne x.2 hx2 hxn) hrev x.1
    have split : ∀ w : List ℝ, ∑ i ∈ range dets.length, w.getD i 0 ^ 2 = 1 →
        ∑ i ∈ range dets.length, ∑ j ∈ range dets.length, w.getD i 0 * fieldEl D dets o x.1 x.2 i j * w.getD j 0 =
        isolatedEnergy D dets w - D.interactions.J / 4 * facing D.config o.neighbor := by
      intro w hw
      rw [sub_eq_add_neg, ← mul_one (-(D.interactions.J / 4 * _)), ← hw, mul_sum]
      unfold isolatedEnergy
      rw [← sum_add_distrib]
      refine sum_congr rfl fun i hi => ?_
      unfold fieldEl
      rw [sum_congr rfl (fun j _ => show _ = w.getD i 0 * hamEl D.interactions (fun s => gridPos (D.config.nbh * D.config.nblocs) s) D.bools
        (conf D.config (dets.getD i [])) (conf D.config (dets.getD j [])) * w.getD j 0 + w.getD i 0 * addedField D.interactions D.config dets o x.2 x.1 i j * w.getD j 0
        by ring), sum_add_distrib]
      congr 1
      rw [sum_eq_single i]
      · rw [F i i (mem_range.1 hi), if_pos rfl]
        ring
      · intro j _ hj
        rw [F i j (mem_range.1 hi), if_neg hj.symm]
        ring
      · intro h
        exact absurd hi h
    rw [split z.2 s2] at s3
    rw [split gs hnorm] at s4
    have hz : isolatedEnergy D dets z.2 ≤ isolatedEnergy D dets gs := by linarith
    have hz2 := hlow z.2 s1 s2
    have hzs := (lowest_sign E hc hf h0 hn hJ hij hb gs hl hnorm hlow z.2 s1 s2 hz).1
    intro y hy
    rcases List.mem_cons.1 hy with rfl | hy
    · exact ⟨hzs, by linarith⟩
    · exact ih z hzs hch y hy

end

/-- States that are equal up to sign, each one far from the one before: the sign changes each time. -/
theorem sign_changes {n : Nat} {tol : ℝ} (ht : 0 < tol) {gs : List ℝ} (hl : gs.length = n) (hnorm : ∑ i ∈ range n, gs.getD i 0 ^ 2 = 1) :
    ∀ m : List (ℝ × List ℝ), (∀ y ∈ m, y.2 = gs ∨ y.2 = gs.map (fun z => - z)) → m.IsChain (fun a b => ¬ SmallChange Real.sqrt tol b.2 a.2) →
      m.IsChain (fun a b => b.2 = a.2.map (fun z => - z)) := by
  have hnn : (gs.map (fun z => - z)).map (fun z => - z) = gs := by rw [List.map_map]; simp
  have hng : ∀ k, (gs.map (fun z => - z)).getD k 0 = - gs.getD k 0 := fun k => by
    rw [List.getD_eq_getElem?_getD, List.getD_eq_getElem?_getD, List.getElem?_map]
    cases gs[k]? <;> simp
  have same : ∀ v : List ℝ, (v = gs ∨ v = gs.map (fun z => - z)) → SmallChange Real.sqrt tol v v := by
    intro v hv
    have h1 : sqDist v.length v [] = 1 := by
      unfold sqDist
      rw [← hnorm]
      rcases hv with h | h <;> rw [h]
      · rw [hl]; simp
      · rw [List.length_map, hl]
        refine sum_congr rfl fun i _ => ?_
        rw [hng]; simp
    have h2 : sqDist v.length v v = 0 := by
      unfold sqDist
      exact sum_eq_zero fun i _ => by ring
    refine ⟨rfl, ?_, ?_⟩
    · rw [h1]; simp
    · rw [h1, h2]; simpa using ht
  intro m
  induction m with
  | nil => intro _ _; exact .nil
  | cons a m ih =>
    intro h1 h2
    cases m with
    | nil => exact .singleton _
    | cons b m =>
      rw [List.isChain_cons_cons] at h2 ⊢
      refine ⟨?_, ih (fun y hy => h1 y (List.mem_cons_of_mem _ hy)) h2.2⟩
      have ha := h1 a (by simp)
      have hb := h1 b (by simp)
      rcases ha with ha | ha <;> rcases hb with hb | hb
      · exact absurd (by rw [hb, ha]; exact same gs (Or.inl rfl)) h2.1
      · rw [hb, ha]
      · rw [hb, ha, hnn]
      · exact absurd (by rw [hb, ha]; exact same _ (Or.inr rfl)) h2.1

/-- C137. If the saved state of the isolated block has the lowest energy, `embedding_blocks` without dynamical effects, with any of its options, does nothing to an antiferromagnetic block
without holes with as many up as down spins: what it saves, if it converges, is the same state up to its sign, with the energy of the isolated block lowered by `J/4` for each
facing site. If it does not converge, then every iteration changed the sign of the state. -/
theorem C137_saved (E : Env) (srt : List (Nat × ℝ) → List (Nat × ℝ)) (hsrt : RowSort srt) (fs : FileSys ℝ) (hroot : fs.root = true) (D : Data ℝ)
    (hc : RectConf D.config D.config.nbh D.config.nbv D.config.nblocs) (hf : D.config.Full) (h0 : D.config.nholes = 0)
    (hn : 2 * D.config.nbeta = D.config.nsites) (hJ : 0 < D.interactions.J) (hij : D.bools.bij = true)
    (hguess : D.diag.guess = none) (hstp : 1 ≤ D.diag.stp) (L : Nat → LinAlg ℝ) (hq : ∀ k, (L k).ExactQr)
    (hei : ∀ k, (L k).ExactEigh) (he0 : ∀ k n M i, ((L k).eigh n M).2 i ≠ 0) (hrand : ∀ k d m, ((L k).rand d m).length = m) (fuel : Nat)
    (neel : Bool) (o : BlockOptions ℝ) (ho : o.dynamic = false)
    (hsq : o.neighbor = false → D.config.nbh * D.config.nblocs = D.config.nbv * D.config.nblocs) (dets : List (List Nat))
    (hb : constructBasis D.config = .ok dets)
    (hE : ∀ su, blockSetup E.toSetSem D.config dets o.reverse = .ok su →
      GeomLattice E su.cE (twoPos (D.config.nbh * D.config.nblocs) (D.config.nbv * D.config.nblocs)))
    (Ld : Loaded ℝ) (hload : fs.load (blocksStart neel D.config.nsites D.config.nalpha D.config.nbeta D.bools) = .ok Ld) (e0 : ℝ) (gs : List ℝ)
    (hst : StartFile D dets Ld e0 gs) (hlow : Lowest D dets gs) (tol : ℝ) (ht : 0 < tol) (maxIter : Nat) (hm : 1 ≤ maxIter) :
    ∃ fs' res l, blocksOnDisk E Real.sqrt srt (fun g => davidsonSolver L 1 (some g) D.diag.stp D.diag.tol D.diag.dimMax) (fuel + 1) fs D neel o tol maxIter =
        (fs', .ok res) ∧ ((e0, gs) :: l).IsChain (FieldStep D dets o gs) ∧
      (res = none → l.length = maxIter ∧ ((e0, gs) :: l).IsChain (fun a b => b.2 = a.2.map (fun z => - z))) ∧
      ∀ d, res = some d → ∃ P, fs'.load (savedBlocksFile o.dynamic neel o.neighbor D.config.nsites D.config.nalpha D.config.nbeta D.bools) = .ok P ∧ SameData P d ∧
        P.eigenstates.eigvals = [isolatedEnergy D dets gs - D.interactions.J / 4 * facing D.config o.neighbor] ∧
        (P.eigenstates.eigvects = gs.map (fun z => [z]) ∨ P.eigenstates.eigvects = gs.map (fun z => [- z])) := by
  obtain ⟨fs', res, l, c1, c2, c3, c4, c5, c6⟩ := C130_blocks_partial E srt hsrt fs hroot D hc hf (by omega) hguess hstp Real.sqrt L hq hei he0 hrand fuel neel o
    (fun hd => by rw [ho] at hd; cases hd) hsq dets hb hE Ld hload e0 gs hst tol maxIter hm
  have all := C137_chain E hc hf h0 hn hJ hij hb o ho hsq gs hst.length hst.norm hlow l (e0, gs) (Or.inl rfl) c2
  have all' : ∀ y ∈ (e0, gs) :: l, y.2 = gs ∨ y.2 = gs.map (fun z => - z) := by
    intro y hy
    rcases List.mem_cons.1 hy with rfl | hy
    · exact Or.inl rfl
    · exact (all y hy).1
  refine ⟨fs', res, l, c1, c2, fun hr => ⟨(c4 hr).2.1, ?_⟩, fun d hd => ?_⟩
  · refine sign_changes ht hst.length hst.norm _ all' (c4 hr).2.2
  obtain ⟨p, x, y, P, q1, q2, q3, q4, q5, q6, q7, q8, q9⟩ := c6 d hd
  have hy : y ∈ l := by
    have h1 : ((e0, gs) :: l).getLast? = some y := by rw [q1]; simp
    cases l with
    | nil =>
      have := congrArg List.length q1
      simp at this
    | cons z l =>
      rw [List.getLast?_cons_cons] at h1
      exact List.mem_of_getLast? h1
  obtain ⟨k1, k2⟩ := all y hy
  refine ⟨P, q4, q5, by rw [q7, k2], ?_⟩
  rcases k1 with k1 | k1
  · left; rw [q8, k1]
  · right; rw [q8, k1, List.map_map]; rfl

/-- A normalised state of lowest energy exists, and can be saved. -/
theorem exists_saved (E : Env) (srt : List (Nat × ℝ) → List (Nat × ℝ)) (hsrt : RowSort srt) (fs : FileSys ℝ) (hroot : fs.root = true) (D : Data ℝ) (T : Times ℝ)
    (hc : RectConf D.config D.config.nbh D.config.nbv D.config.nblocs) (hf : D.config.Full) (hn : D.config.nholes + D.config.nbeta ≤ D.config.nsites)
    (hs : D.bools.bt ∧ D.bools.bij ∧ D.bools.bSD ∧ D.bools.btN ∧ D.bools.bV) (dets : List (List Nat)) (hb : constructBasis D.config = .ok dets) :
    ∃ d Ld e gs, (saveDataFs fs d).1.root = true ∧
      (saveDataFs fs d).1.load (blocksStart false D.config.nsites D.config.nalpha D.config.nbeta D.bools) = .ok Ld ∧ StartFile D dets Ld e gs ∧ Lowest D dets gs := by
  have hnz : D.config.nsites ≠ 0 := by
    have h1 := hc.spec.1
    have h4 := Nat.mul_pos (Nat.mul_pos hc.hh hc.hb) (Nat.mul_pos hc.hv hc.hb)
    omega
  have hdim := C02_dimension D.config dets hb
  obtain ⟨H, hH, hd, _, _⟩ := buildHamiltonian_spec D.interactions (hc.tj E) hf hn hb D.bools [] true
  have hel := C31_matrix_elements E D.config _ _ _ hc hf hn D.interactions D.bools [] true dets hb H hH
  have hsym : H.toMatrix.IsSymm := by
    ext i j
    exact C32_symmetric E D.config _ _ _ hc hf hn D.interactions D.bools [] true dets hb H hH j i
  have form := fun q : Fin H.dim → ℝ => sum_forms hd H.toMatrix (fun i j => hamEl D.interactions (fun s => gridPos (D.config.nbh * D.config.nblocs) s) D.bools
    (conf D.config (dets.getD i [])) (conf D.config (dets.getD j []))) (fun i j => by
      have hi : i.1 < dets.length := hd ▸ i.2
      have hj : j.1 < dets.length := hd ▸ j.2
      rw [List.getD_eq_getElem dets [] hi, List.getD_eq_getElem dets [] hj]
      exact hel i j hi hj) q
  obtain ⟨mu, y, k, y1, y2, y3, y4⟩ := exists_ground E hc hf hn hb hH
  set d : DataComputations ℝ := ⟨D.config, D.interactions, D.diag, D.bools, D.spinMult, dets, H.toCsr srt, ⟨[mu k], [], List.ofFn (fun i => [y k i])⟩, some T⟩ with hdd
  obtain ⟨w1, ⟨Ld, l1, l2, _⟩, _⟩ := C90_chain_partial fs hroot d T rfl hnz
    (show CsrShape D.config.nbConf _ _ _ by rw [← hdim, ← hd]; exact (toCsr_canonical hsrt H (build_bounds hH)).shape) hs
  have hroot1 : (saveDataFs fs d).1.root = true := by
    unfold saveDataFs writeJson
    dsimp only
    split_ifs
    · cases (saveData d).map (·.2) <;> exact hroot
    · exact hroot
  have d2 : Ld.ham = H.toCsr srt := l2.ham
  have hnorm : y k ⬝ᵥ y k = 1 := by rw [y2, if_pos rfl]
  refine ⟨d, Ld, mu k, List.ofFn (y k), hroot1, l1, ⟨l2.determinants, l2.hamDim.trans hdim.symm, ?_, ?_, ?_, ?_, by simp [hd], ?_⟩, ?_⟩
  · intro i hi p hp
    rw [d2, toCsr_row srt H (by omega)] at hp
    have := row_lt hsrt (build_bounds hH) hp
    omega
  · intro i hi j hj
    rw [d2, toCsr_entry hsrt _ (by omega), hel i j hi hj]
    simp only [List.getD_eq_getElem _ _ hi, List.getD_eq_getElem _ _ hj]
  · rw [l2.eigenstates]; rfl
  · rw [l2.eigenstates]
    show (List.ofFn (fun i => [y k i])).map (·.head?) = _
    rw [List.ofFn_eq_map, List.ofFn_eq_map, List.map_map, List.map_map]
    rfl
  · rw [(form _).1, hnorm]
  · intro v v1 v2
    have hq := ofFn_getD hd v v1
    have k1 := form (fun i => v.getD i 0)
    rw [hq] at k1
    have e1 : isolatedEnergy D dets (List.ofFn (y k)) = mu k := by
      have := (form (y k)).2
      rw [y1, dotProduct_smul, hnorm, smul_eq_mul, mul_one] at this
      exact this
    have e2 := lowest_le_quotient hsym y1 y2 (mu k) y3 (fun i => v.getD i 0)
    rw [← k1.1, ← k1.2, v2, mul_one] at e2
    rw [e1]
    exact e2

/-- Two up and two down spins on 2 x 2 sites with `J = 2`. -/
noncomputable def heisenbergCase : Data ℝ :=
  ⟨rectConf 1 1 2 0 2, ⟨-1, 2, 3, 4, 5, 6, 7, 8, 9, 10⟩, ⟨2, 1000, 1 / 1000, 0, none⟩, ⟨true, true, true, true, true, true⟩, false⟩

/-- In the field of four blocks its energy is lowered by 4, in the field of one by 1. -/
example (nbr rev : Bool) : ∃ fs : FileSys ℝ, ∃ fs' res e, blocksOnDisk twoEnv Real.sqrt insertionRows
      (fun g => davidsonSolver (fun _ => realLib) 1 (some g) 1000 (1 / 1000) 0) 1 fs heisenbergCase false ⟨false, nbr, rev, 1 / 1000000⟩ (1 / 1000) 20 = (fs', .ok res) ∧
    ∀ d, res = some d → d.eigenstates.eigvals = [e - if nbr then 1 else 4] := by
  have hf : heisenbergCase.config.Full := by unfold Config.Full; decide +kernel
  have hc : RectConf heisenbergCase.config 1 1 2 := rectConf_ok 1 1 2 0 2 (by omega) (by omega) (by omega)
  have hn : heisenbergCase.config.nholes + heisenbergCase.config.nbeta ≤ heisenbergCase.config.nsites := by decide +kernel
  obtain ⟨dets, hb⟩ : ∃ dets, constructBasis heisenbergCase.config = .ok dets := ⟨_, constructBasis_eq _⟩
  obtain ⟨d, Ld, e, gs, a1, a2, a3, a4⟩ := exists_saved twoEnv insertionRows insertionRows_sort emptyDir rfl heisenbergCase (exactRuns 3).times hc hf hn (by decide +kernel) dets hb
  obtain ⟨fs', res, l, m1, m2, m3, m4⟩ := C137_saved twoEnv insertionRows insertionRows_sort _ a1 heisenbergCase hc hf (by decide +kernel) (by decide +kernel)
    (by norm_num [heisenbergCase]) rfl rfl (by norm_num [heisenbergCase]) (fun _ => realLib) (fun _ => realLib_qr) (fun _ => realLib_eigh)
    (fun _ => realLib_ne_zero) (fun _ => realLib_rand) 0 false ⟨false, nbr, rev, 1 / 1000000⟩ rfl (fun _ => by decide +kernel) dets hb
    (two_squares_geom 0 2 dets rev) Ld a2 e gs a3 a4 (1 / 1000) (by norm_num) 20 (by omega)
  refine ⟨_, fs', res, isolatedEnergy heisenbergCase dets gs, m1, fun d' hd => ?_⟩
  obtain ⟨P, q1, q2, q3, _⟩ := m4 d' hd
  rw [← q2.eigenstates, q3]
  have e1 : heisenbergCase.config.nbv * heisenbergCase.config.nblocs = 2 := rfl
  have e2 : heisenbergCase.interactions.J = 2 := rfl
  cases nbr <;> norm_num [facing, e1, e2]

end TJ
