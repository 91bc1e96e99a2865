/-
Property C131: how far the neighbouring blocks move the energy in `embedding_blocks`.
-/
import Verif.Props.BlocksRun
import Verif.Props.EmbeddingShift

namespace TJ
open Finset Matrix

/-- The number of sites of the block on the right that are near the point `p` of the block. -/
def rightNear (W : Nat) (p : Pt) : Nat := if p.1 = W - 1 then 1 else 0

/-- The number of sites of the block on the right that are across a tile from the point `p` of the block. -/
def rightDiag (W H : Nat) (p : Pt) : Nat := if p.1 = W - 1 then (if p.2 = 0 then 0 else 1) + (if p.2 = H - 1 then 0 else 1) else 0

section
variable {W H : Nat}

/-- The sites of the block on the right that are near a point of the block, or across a tile. -/
theorem right_counts (hW : 1 ≤ W) {p : Pt} (h2 : p.1 < W) :
    ((range (W * H)).filter fun r => Near p ((gridPos W r).1 + (W : Nat), (gridPos W r).2)).card ≤ rightNear W p ∧
    ((range (W * H)).filter fun r => Diagonal p ((gridPos W r).1 + (W : Nat), (gridPos W r).2)).card ≤
      rightDiag W H p := by
  unfold rightNear rightDiag
  have inj : ∀ s : Finset Nat, s ⊆ range (W * H) → s.card = (s.image (gridPos W)).card := fun s _ =>
    (card_image_of_injective _ (fun a b h => gridPos_inj h)).symm
  constructor
  · rw [inj _ (filter_subset _ _)]
    have : ((range (W * H)).filter fun r => Near p ((gridPos W r).1 + (W : Nat), (gridPos W r).2)).image (gridPos W) ⊆
        if p.1 = W - 1 then {(0, p.2)} else ∅ := by
      intro q hq
      obtain ⟨r, hr, rfl⟩ := mem_image.1 hq
      obtain ⟨hr, hn⟩ := mem_filter.1 hr
      have g := gridPos_range hW (mem_range.1 hr)
      unfold Near at hn
      dsimp only at hn
      split_ifs with hp
      · rw [mem_singleton, Prod.ext_iff]; dsimp only; omega
      · omega
    refine le_trans (card_le_card this) ?_
    split_ifs <;> simp
  · rw [inj _ (filter_subset _ _)]
    have : ((range (W * H)).filter fun r => Diagonal p ((gridPos W r).1 + (W : Nat), (gridPos W r).2)).image (gridPos W) ⊆
        if p.1 = W - 1 then (if p.2 = 0 then ∅ else {((0 : Int), p.2 - 1)}) ∪ (if p.2 = H - 1 then ∅ else {((0 : Int), p.2 + 1)}) else ∅ := by
      intro q hq
      obtain ⟨r, hr, rfl⟩ := mem_image.1 hq
      obtain ⟨hr, hn⟩ := mem_filter.1 hr
      have g := gridPos_range hW (mem_range.1 hr)
      unfold Diagonal at hn
      dsimp only at hn
      split_ifs <;> simp only [mem_union, mem_singleton, Prod.ext_iff, notMem_empty, or_false, false_or] <;> omega
    refine le_trans (card_le_card this) ?_
    split_ifs <;> first | exact le_trans (card_union_le _ _) (by simp) | simp

/-- A site of the block on the right is near at most one site of the block, and none if it is not in the first column. -/
theorem right_near (hW : 1 ≤ W) {place : Nat → Pt} (hp : ∀ a < W * H, 0 ≤ (place a).1 ∧ (place a).1 < W) (hi : ∀ a < W * H, ∀ b < W * H, place a = place b → a = b)
    {r : Nat} (hr : r < W * H) :
    ((range (W * H)).filter fun a => Near (place a) ((gridPos W r).1 + (W : Nat), (gridPos W r).2)).card ≤ (if (gridPos W r).1 = 0 then 1 else 0) := by
  have g := gridPos_range hW hr
  split_ifs with h0
  · rw [card_le_one]
    intro a ha b hb
    obtain ⟨ha, na⟩ := mem_filter.1 ha
    obtain ⟨hb, nb⟩ := mem_filter.1 hb
    have pa := hp a (mem_range.1 ha)
    have pb := hp b (mem_range.1 hb)
    unfold Near at na nb
    dsimp only at na nb
    exact hi a (mem_range.1 ha) b (mem_range.1 hb) (Prod.ext (by omega) (by omega))
  · rw [Nat.le_zero, card_eq_zero, filter_eq_empty_iff]
    intro a ha hn
    have pa := hp a (mem_range.1 ha)
    unfold Near at hn
    dsimp only at hn
    omega

end

/-- The first column of the block on the right. -/
theorem first_column {W H : Nat} (hW : 1 ≤ W) : ((range (W * H)).filter fun r => (gridPos W r).1 = 0).card ≤ H := by
  have : ((range (W * H)).filter fun r => (gridPos W r).1 = 0).image (fun r => (gridPos W r).2.toNat) ⊆ range H := by
    intro y hy
    obtain ⟨r, hr, rfl⟩ := mem_image.1 hy
    have g := gridPos_range hW (mem_range.1 (mem_filter.1 hr).1)
    rw [mem_range]
    omega
  have := card_le_card this
  rw [card_range, card_image_of_injOn] at this
  · exact this
  · intro a ha b hb hab
    obtain ⟨ha, ha'⟩ := mem_filter.1 ha
    obtain ⟨hb, hb'⟩ := mem_filter.1 hb
    have ga := gridPos_range hW (mem_range.1 ha)
    have gb := gridPos_range hW (mem_range.1 hb)
    dsimp only at hab
    exact gridPos_inj (W := W) (Prod.ext (by omega) (by omega))

section
variable {K : Type} [Field K] [LinearOrder K] [IsStrictOrderedRing K]

/-- The interaction with the block on the right: at least `-J/2` per row, at most the repulsions of the holes of the last column. -/
theorem right_bounds {W H : Nat} (hW : 1 ≤ W) (I : Interactions K) (hJ : 0 ≤ I.J) (hV : 0 ≤ I.VNN) (hV' : 0 ≤ I.VNNNper)
    {place : Nat → Pt} (hp : ∀ a < W * H, 0 ≤ (place a).1 ∧ (place a).1 < W) (hi : ∀ a < W * H, ∀ b < W * H, place a = place b → a = b)
    (σ : Nat → Occ) (f : Occ → Nat → K) (hf : ∀ o r, 0 ≤ f o r ∧ f o r ≤ 1) :
    - (I.J / 2 * H) ≤ borderEnergy I (W * H) (W * H) (fun a r => Near (place a) ((gridPos W r).1 + (W : Nat), (gridPos W r).2))
        (fun a r => Diagonal (place a) ((gridPos W r).1 + (W : Nat), (gridPos W r).2)) σ f ∧
      borderEnergy I (W * H) (W * H) (fun a r => Near (place a) ((gridPos W r).1 + (W : Nat), (gridPos W r).2))
        (fun a r => Diagonal (place a) ((gridPos W r).1 + (W : Nat), (gridPos W r).2)) σ f ≤
          ∑ a ∈ (range (W * H)).filter (fun a => σ a = .hole), (rightNear W (place a) * I.VNN + rightDiag W H (place a) * I.VNNNper : K) := by
  unfold borderEnergy
  have hcorner : ∀ a r, 0 ≤ cornerEnergy I (σ a) (fun o => f o r) := by
    intro a r
    cases σ a <;> simp only [cornerEnergy, le_refl]
    exact mul_nonneg hV' (hf _ r).1
  constructor
  · rw [sum_comm]
    have h1 : ∀ r ∈ range (W * H), (if (gridPos W r).1 = 0 then - (I.J / 2) else 0) ≤
        ∑ a ∈ range (W * H), ((if Near (place a) ((gridPos W r).1 + (W : Nat), (gridPos W r).2) then bondEnergy I (σ a) (fun o => f o r) else 0) +
          if Diagonal (place a) ((gridPos W r).1 + (W : Nat), (gridPos W r).2) then cornerEnergy I (σ a) (fun o => f o r) else 0) := by
      intro r hr
      have h2 : (∑ a ∈ range (W * H), if Near (place a) ((gridPos W r).1 + (W : Nat), (gridPos W r).2) then - (I.J / 2) else 0) ≤
          ∑ a ∈ range (W * H), ((if Near (place a) ((gridPos W r).1 + (W : Nat), (gridPos W r).2) then bondEnergy I (σ a) (fun o => f o r) else 0) +
            if Diagonal (place a) ((gridPos W r).1 + (W : Nat), (gridPos W r).2) then cornerEnergy I (σ a) (fun o => f o r) else 0) := by
        refine sum_le_sum fun a _ => ?_
        have hc := hcorner a r
        have hb : - (I.J / 2) ≤ bondEnergy I (σ a) (fun o => f o r) := by
          have e : ∀ o, - (I.J / 2) ≤ - (I.J / 2) * f o r := by
            intro o
            have := mul_le_mul_of_nonneg_left (hf o r).2 (by linarith : 0 ≤ I.J / 2)
            linarith
          cases σ a <;> simp only [bondEnergy]
          · have := mul_nonneg hV (hf .hole r).1
            linarith
          · exact e _
          · exact e _
        split_ifs <;> linarith
      refine le_trans ?_ h2
      rw [← sum_filter, sum_const, nsmul_eq_mul]
      have c := right_near (H := H) hW hp hi (mem_range.1 hr)
      have c : (((range (W * H)).filter fun a => Near (place a) ((gridPos W r).1 + (W : Nat), (gridPos W r).2)).card : K) ≤
          ((if (gridPos W r).1 = 0 then 1 else 0 : Nat) : K) := by exact_mod_cast c
      have := mul_le_mul_of_nonneg_right c (by linarith : 0 ≤ I.J / 2)
      split_ifs at this ⊢ <;> push_cast at this <;> linarith
    refine le_trans ?_ (sum_le_sum h1)
    rw [← sum_filter, sum_const, nsmul_eq_mul]
    have c : (((range (W * H)).filter fun r => (gridPos W r).1 = 0).card : K) ≤ H := by exact_mod_cast first_column hW
    have := mul_le_mul_of_nonneg_right c (by linarith : 0 ≤ I.J / 2)
    linarith
  · rw [sum_filter]
    refine sum_le_sum fun a ha => ?_
    obtain ⟨c1, c2⟩ := right_counts (H := H) hW (p := place a) (hp a (mem_range.1 ha)).2
    dsimp only
    by_cases hs : σ a = .hole
    · rw [if_pos hs, hs, sum_add_distrib, ← sum_filter, ← sum_filter]
      refine add_le_add ?_ ?_
      · refine le_trans (sum_le_card_nsmul _ _ I.VNN fun r _ => ?_) ?_
        · simpa [bondEnergy] using mul_le_mul_of_nonneg_left (hf .hole r).2 hV
        · rw [nsmul_eq_mul]
          exact mul_le_mul_of_nonneg_right (by exact_mod_cast c1) hV
      · refine le_trans (sum_le_card_nsmul _ _ I.VNNNper fun r _ => ?_) ?_
        · simpa [cornerEnergy] using mul_le_mul_of_nonneg_left (hf .hole r).2 hV'
        · rw [nsmul_eq_mul]
          exact mul_le_mul_of_nonneg_right (by exact_mod_cast c2) hV'
    · rw [if_neg hs]
      refine sum_nonpos fun r _ => ?_
      have e : ∀ o, - (I.J / 2) * f o r ≤ 0 := by
        intro o
        have := mul_nonneg (by linarith : 0 ≤ I.J / 2) (hf o r).1
        linarith
      have hb : bondEnergy I (σ a) (fun o => f o r) ≤ 0 := by
        revert hs
        cases σ a <;> simp only [bondEnergy] <;> intro hs
        · exact absurd trivial hs
        · exact e _
        · exact e _
      have hc : cornerEnergy I (σ a) (fun o => f o r) = 0 := by
        revert hs
        cases σ a <;> simp [cornerEnergy]
      rw [hc]
      split_ifs <;> linarith

end

/-! ### C131 -/

/-- `J/2` for every site of the block that faces a neighbour: on one side, or on all four. -/
noncomputable def fieldLow (I : Interactions ℝ) (c : Config) (o : BlockOptions ℝ) : ℝ := I.J / 2 * ((if o.neighbor then 1 else 4) * (c.nbv * c.nblocs) : Nat)

/-- The repulsions that a hole can meet across the sides: one and two across one side, two and two across all four. -/
noncomputable def fieldHigh (I : Interactions ℝ) (c : Config) (o : BlockOptions ℝ) : ℝ :=
  c.nholes * (if o.neighbor then I.VNN + 2 * I.VNNNper else 2 * I.VNN + 2 * I.VNNNper)

/-- The energy of a state of the isolated block. -/
noncomputable def isolatedEnergy (D : Data ℝ) (dets : List (List Nat)) (v : List ℝ) : ℝ :=
  ∑ i ∈ range dets.length, ∑ j ∈ range dets.length, v.getD i 0 * hamEl D.interactions (fun s => gridPos (D.config.nbh * D.config.nblocs) s) D.bools
    (conf D.config (dets.getD i [])) (conf D.config (dets.getD j [])) * v.getD j 0

theorem turn_pow_inj {L : Nat} (q : Nat) {p p' : Pt} (h : (turn L ^ q) p = (turn L ^ q) p') : p = p' := (turn L ^ q).injective h

/-- The four images of a point of a square block are in the block; it touches at most two sides, and meets at most two sites across a tile. -/
theorem turn_counts {L : Nat} (hL : 2 ≤ L) {p : Pt} (h1 : 0 ≤ p.1) (h2 : p.1 < L) (h3 : 0 ≤ p.2) (h4 : p.2 < L) :
    (∀ q < 4, 0 ≤ ((turn L ^ q) p).1 ∧ ((turn L ^ q) p).1 < L) ∧
    ∑ q ∈ range 4, rightNear L ((turn L ^ q) p) ≤ 2 ∧ ∑ q ∈ range 4, rightDiag L L ((turn L ^ q) p) ≤ 2 := by
  have t0 : (turn L ^ 0) p = p := rfl
  have t1 : (turn L ^ 1) p = (p.2, L - 1 - p.1) := rfl
  have t2 : (turn L ^ 2) p = (L - 1 - p.1, L - 1 - p.2) := rfl
  have t3 : (turn L ^ 3) p = (L - 1 - p.2, L - 1 - (L - 1 - p.1)) := rfl
  refine ⟨?_, ?_, ?_⟩
  · intro q hq
    obtain rfl | rfl | rfl | rfl : q = 0 ∨ q = 1 ∨ q = 2 ∨ q = 3 := by omega
    · rw [t0]; omega
    · rw [t1]; dsimp only; omega
    · rw [t2]; dsimp only; omega
    · rw [t3]; dsimp only; omega
  · simp only [sum_range_succ, range_zero, sum_empty, t0, t1, t2, t3, rightNear]
    split_ifs <;> omega
  · simp only [sum_range_succ, range_zero, sum_empty, t0, t1, t2, t3, rightDiag]
    split_ifs <;> omega

/-- C131. Without dynamical effects the neighbours only add to the diagonal, between `-J/2` for each facing site and the repulsions of the holes. -/
theorem C131_field (I : Interactions ℝ) (hJ : 0 ≤ I.J) (hV : 0 ≤ I.VNN) (hV' : 0 ≤ I.VNNNper) (c : Config) (hc : RectConf c c.nbh c.nbv c.nblocs)
    (hn : c.nholes + c.nbeta ≤ c.nsites) (dets : List (List Nat)) (hb : constructBasis c = .ok dets) (o : BlockOptions ℝ) (ho : o.dynamic = false)
    (hsq : o.neighbor = false → c.nbh * c.nblocs = c.nbv * c.nblocs ∧ 2 ≤ c.nbh * c.nblocs) (gs : List ℝ) (en : ℝ) (i j : Nat) (hi : i < dets.length) :
    (i ≠ j → addedField I c dets o gs en i j = 0) ∧
    (i = j → - fieldLow I c o ≤ addedField I c dets o gs en i j ∧ addedField I c dets o gs en i j ≤ fieldHigh I c o) := by
  unfold addedField
  rw [ho]
  simp only [Bool.false_eq_true, if_false, add_zero]
  refine ⟨fun hij => if_neg hij, fun hij => ?_⟩
  rw [if_pos hij, List.getD_eq_getElem dets [] hi]
  have hW : 1 ≤ c.nbh * c.nblocs := Nat.mul_pos hc.hh hc.hb
  have en : c.nsites = c.nbh * c.nblocs * (c.nbv * c.nblocs) := by
    obtain ⟨_, _, q⟩ := neelGeom hc
    exact q.rows
  have hf : ∀ o' r, 0 ≤ neighbourLaw c dets o.reverse gs o' r ∧ neighbourLaw c dets o.reverse gs o' r ≤ 1 := by
    intro o' r
    unfold neighbourLaw
    split_ifs
    · exact ⟨born_nonneg _ _ _, born_le_one _ _ _⟩
    · exact ⟨born_nonneg _ _ _, born_le_one _ _ _⟩
    · exact ⟨le_refl _, zero_le_one⟩
  have hv := valid_getElem hb (List.getElem?_eq_getElem hi)
  have k1 := cnt_occ_hole hv hn
  have k2 : ((range (c.nbh * c.nblocs * (c.nbv * c.nblocs))).filter fun a => occ c.nholes c.nbeta dets[i] a = .hole).card = c.nholes := by
    refine Eq.trans ?_ k1; rw [en]; rfl
  have bd := fun (place : Nat → Pt) hp hi' => right_bounds (H := c.nbv * c.nblocs) hW I hJ hV hV' (place := place) hp hi'
    (occ c.nholes c.nbeta dets[i]) (neighbourLaw c dets o.reverse gs) hf
  unfold rightEnergy
  rw [en]
  cases hnb : o.neighbor with
  | true =>
    simp only [if_true]
    obtain ⟨b1, b2⟩ := bd (gridPos (c.nbh * c.nblocs)) (fun a ha => by have := gridPos_range hW ha; omega) (fun a _ b _ h => gridPos_inj h)
    refine ⟨le_trans (le_of_eq ?_) b1, le_trans b2 ?_⟩
    · unfold fieldLow
      rw [hnb]
      simp
    · unfold fieldHigh
      rw [hnb, if_pos rfl]
      refine le_trans (sum_le_card_nsmul _ _ (I.VNN + 2 * I.VNNNper) fun a _ => ?_) (le_of_eq (by rw [k2, nsmul_eq_mul]))
      have c1 : rightNear (c.nbh * c.nblocs) (gridPos (c.nbh * c.nblocs) a) ≤ 1 := by unfold rightNear; split_ifs <;> omega
      have c2 : rightDiag (c.nbh * c.nblocs) (c.nbv * c.nblocs) (gridPos (c.nbh * c.nblocs) a) ≤ 2 := by unfold rightDiag; split_ifs <;> omega
      have c1 : (rightNear (c.nbh * c.nblocs) (gridPos (c.nbh * c.nblocs) a) : ℝ) ≤ 1 := by exact_mod_cast c1
      have c2 : (rightDiag (c.nbh * c.nblocs) (c.nbv * c.nblocs) (gridPos (c.nbh * c.nblocs) a) : ℝ) ≤ 2 := by exact_mod_cast c2
      have := mul_le_mul_of_nonneg_right c1 hV
      have := mul_le_mul_of_nonneg_right c2 hV'
      linarith
  | false =>
    simp only [Bool.false_eq_true, if_false]
    obtain ⟨s1, s2⟩ := hsq hnb
    rw [← s1] at bd k2 ⊢
    set L := c.nbh * c.nblocs with hL
    have tc := fun a (ha : a < L * L) => by
      have g := gridPos_range hW ha
      exact turn_counts s2 (p := gridPos L a) (by omega) (by omega) (by omega) (by omega)
    have b := fun q (hq : q ∈ range 4) => bd (fun a => (turn L ^ q) (gridPos L a)) (fun a ha => (tc a ha).1 q (mem_range.1 hq))
      (fun a _ b _ h => gridPos_inj (turn_pow_inj q h))
    refine ⟨le_trans (le_of_eq ?_) (sum_le_sum fun q hq => (b q hq).1), le_trans (sum_le_sum fun q hq => (b q hq).2) ?_⟩
    · unfold fieldLow
      rw [hnb, sum_const, card_range, nsmul_eq_mul, ← s1]
      push_cast
      simp
      ring
    · unfold fieldHigh
      rw [hnb, sum_comm]
      simp only [Bool.false_eq_true, if_false]
      refine le_trans (sum_le_card_nsmul _ _ (2 * I.VNN + 2 * I.VNNNper) fun a ha => ?_) (le_of_eq (by rw [k2, nsmul_eq_mul]))
      obtain ⟨_, c1, c2⟩ := tc a (mem_range.1 (mem_filter.1 ha).1)
      have c1 : (∑ q ∈ range 4, (rightNear L ((turn L ^ q) (gridPos L a)) : ℝ)) ≤ 2 := by exact_mod_cast c1
      have c2 : (∑ q ∈ range 4, (rightDiag L L ((turn L ^ q) (gridPos L a)) : ℝ)) ≤ 2 := by exact_mod_cast c2
      rw [sum_add_distrib, ← sum_mul, ← sum_mul]
      have := mul_le_mul_of_nonneg_right c1 hV
      have := mul_le_mul_of_nonneg_right c2 hV'
      linarith

/-- C131. In every iteration the energy differs from that of the same state of the isolated block by an amount between these bounds, and is not above the energy
of the guess in the isolated block by more than the upper one. -/
theorem C131_step (D : Data ℝ) (hJ : 0 ≤ D.interactions.J) (hV : 0 ≤ D.interactions.VNN) (hV' : 0 ≤ D.interactions.VNNNper)
    (hc : RectConf D.config D.config.nbh D.config.nbv D.config.nblocs) (hn : D.config.nholes + D.config.nbeta ≤ D.config.nsites) (dets : List (List Nat))
    (hb : constructBasis D.config = .ok dets) (o : BlockOptions ℝ) (ho : o.dynamic = false)
    (hsq : o.neighbor = false → D.config.nbh * D.config.nblocs = D.config.nbv * D.config.nblocs ∧ 2 ≤ D.config.nbh * D.config.nblocs) (g : List ℝ)
    (hg : ∑ i ∈ range dets.length, g.getD i 0 ^ 2 = 1) (x y : ℝ × List ℝ) (h : FieldStep D dets o g x y) :
    isolatedEnergy D dets y.2 - fieldLow D.interactions D.config o ≤ y.1 ∧ y.1 ≤ isolatedEnergy D dets y.2 + fieldHigh D.interactions D.config o ∧
    y.1 ≤ isolatedEnergy D dets g + fieldHigh D.interactions D.config o := by
  obtain ⟨_, h2, h3, h4⟩ := h
  have F := C131_field D.interactions hJ hV hV' D.config hc hn dets hb o ho hsq x.2 x.1
  have split : ∀ v : List ℝ, ∑ i ∈ range dets.length, ∑ j ∈ range dets.length, v.getD i 0 * fieldEl D dets o x.1 x.2 i j * v.getD j 0 =
      isolatedEnergy D dets v + ∑ i ∈ range dets.length, addedField D.interactions D.config dets o x.2 x.1 i i * v.getD i 0 ^ 2 := by
    intro v
    unfold isolatedEnergy
    rw [← sum_add_distrib]
    refine sum_congr rfl fun i hi => ?_
    unfold fieldEl
    rw [sum_congr rfl (fun j _ => show _ = v.getD i 0 * hamEl D.interactions (fun s => gridPos (D.config.nbh * D.config.nblocs) s) D.bools
      (conf D.config (dets.getD i [])) (conf D.config (dets.getD j [])) * v.getD j 0 + v.getD i 0 * addedField D.interactions D.config dets o x.2 x.1 i j * v.getD j 0
      by ring), sum_add_distrib]
    congr 1
    rw [sum_eq_single i]
    · ring
    · intro j _ hj
      rw [(F i j (mem_range.1 hi)).1 hj.symm]
      ring
    · intro h
      exact absurd hi h
  have up : ∀ v : List ℝ, ∑ i ∈ range dets.length, v.getD i 0 ^ 2 = 1 →
      ∑ i ∈ range dets.length, addedField D.interactions D.config dets o x.2 x.1 i i * v.getD i 0 ^ 2 ≤ fieldHigh D.interactions D.config o := by
    intro v hv
    rw [← mul_one (fieldHigh D.interactions D.config o), ← hv, mul_sum]
    exact sum_le_sum fun i hi => mul_le_mul_of_nonneg_right ((F i i (mem_range.1 hi)).2 rfl).2 (sq_nonneg _)
  have low : - fieldLow D.interactions D.config o ≤ ∑ i ∈ range dets.length, addedField D.interactions D.config dets o x.2 x.1 i i * y.2.getD i 0 ^ 2 := by
    rw [← mul_one (fieldLow D.interactions D.config o), ← h2, mul_sum, ← sum_neg_distrib]
    refine sum_le_sum fun i hi => ?_
    rw [← neg_mul]
    exact mul_le_mul_of_nonneg_right ((F i i (mem_range.1 hi)).2 rfl).1 (sq_nonneg _)
  rw [split] at h3 h4
  have u1 := up y.2 h2
  have u2 := up g hg
  refine ⟨by linarith, by linarith, by linarith⟩

/-- C131. The results of the isolated block are saved, then `embedding_blocks` runs without dynamical effects: the energy that it leaves in its file is at most the
saved energy of the isolated block raised by the repulsions of the holes, and not below the energies of the isolated block by more than `J/2` for
every facing site. Without holes the embedding never raises the energy. -/
theorem C131_saved (E : Env) (R : RunLib) (hsrt : RowSort R.srt) (fs : FileSys ℝ) (hroot : fs.root = true) (D : Data ℝ)
    (hJ : 0 ≤ D.interactions.J) (hV : 0 ≤ D.interactions.VNN) (hV' : 0 ≤ D.interactions.VNNNper)
    (hc : RectConf D.config D.config.nbh D.config.nbv D.config.nblocs) (hf : D.config.Full) (hn : D.config.nholes + D.config.nbeta ≤ D.config.nsites)
    (hguess : D.diag.guess = none)
    (hs : D.bools.bt ∧ D.bools.bij ∧ D.bools.bSD ∧ D.bools.btN ∧ D.bools.bV) (hqR : R.lin.ExactQr) (heiR : R.lin.ExactEigh)
    (r : InitialResult) (h : performInitial E R.lin R.swap D = .ok r)
    (hmin : 1 < min D.diag.nbVal (if D.diag.dimMax = 0 then r.determinants.length else D.diag.dimMax))
    (sqrt : ℝ → ℝ) (L : Nat → LinAlg ℝ) (hq : ∀ k, (L k).ExactQr)
    (hei : ∀ k, (L k).ExactEigh) (he0 : ∀ k n M i, ((L k).eigh n M).2 i ≠ 0) (hrand : ∀ k d m, ((L k).rand d m).length = m) (fuel : Nat)
    (o : BlockOptions ℝ) (ho : o.dynamic = false)
    (hsq : o.neighbor = false → D.config.nbh * D.config.nblocs = D.config.nbv * D.config.nblocs ∧ 2 ≤ D.config.nbh * D.config.nblocs)
    (hE : ∀ su, blockSetup E.toSetSem D.config r.determinants o.reverse = .ok su →
      GeomLattice E su.cE (twoPos (D.config.nbh * D.config.nblocs) (D.config.nbv * D.config.nblocs)))
    (tol : ℝ) (maxIter : Nat) (hm : 1 ≤ maxIter) :
    ∃ fs' res e, blocksOnDisk E sqrt R.srt (fun g => davidsonSolver L 1 (some g) D.diag.stp D.diag.tol D.diag.dimMax) (fuel + 1)
        (saveDataFs fs (r.toData R D)).1 D false o tol maxIter = (fs', .ok res) ∧ r.eig.eigvals.head? = some e ∧
      ∀ d, res = some d → ∃ P e', fs'.load (savedBlocksFile o.dynamic false o.neighbor D.config.nsites D.config.nalpha D.config.nbeta D.bools) = .ok P ∧
        SameData P d ∧ P.eigenstates.eigvals = [e'] ∧ e' ≤ e + fieldHigh D.interactions D.config o ∧
        ∀ lo, (∀ v : List ℝ, v.length = r.determinants.length → ∑ i ∈ range r.determinants.length, v.getD i 0 ^ 2 = 1 →
          lo ≤ isolatedEnergy D r.determinants v) → lo - fieldLow D.interactions D.config o ≤ e' := by
  obtain ⟨a1, hb, hstp, Ld, e, gs, a2, a4, a3, a5⟩ := C130_isolated_start_partial E R hsrt fs hroot D hc hf hn hs hqR heiR r h hmin
  obtain ⟨fs', res, l, c1, c2, c3, c4, c5, c6⟩ := C130_blocks_partial E R.srt hsrt _ a1 D hc hf hn hguess hstp sqrt L hq hei he0 hrand fuel false o
    (fun hd => by rw [ho] at hd; cases hd) (fun h => (hsq h).1) r.determinants hb hE Ld a2 e gs a3 tol maxIter hm
  refine ⟨fs', res, e, c1, a4, fun d hd => ?_⟩
  obtain ⟨p, x, y, P, q1, q2, q3, q4, q5, q6, q7, q8, q9⟩ := c6 d hd
  rw [q1] at c2
  have step : FieldStep D r.determinants o gs x y := by
    have := (List.isChain_append.1 c2).2.1
    simpa using this
  obtain ⟨b1, _, b3⟩ := C131_step D hJ hV hV' hc hn r.determinants hb o ho hsq gs a3.norm x y step
  refine ⟨P, y.1, q4, q5, q7, ?_, fun lo hlo => ?_⟩
  · have : isolatedEnergy D r.determinants gs = e := a5
    linarith
  · have := hlo y.2 step.1 step.2.1
    linarith

/-- One hole and three up spins on 2 x 2 sites, next to one block or to four: the run ends, and the bounds are 38 and 8 for four neighbours (29 and 2 for one). -/
example (nbr rev : Bool) : ∃ r : InitialResult, ∃ fs' res e,
    blocksOnDisk twoEnv Real.sqrt insertionRows (fun g => davidsonSolver (fun _ => realLib) 1 (some g) 1000 (1 / 1000) 0) 1
      (saveDataFs emptyDir (r.toData (exactRuns 3) blocksCase)).1 blocksCase false ⟨false, nbr, rev, 1 / 1000000⟩ (1 / 1000) 20 = (fs', .ok res) ∧
    r.eig.eigvals.head? = some e ∧
    ∀ d, res = some d → ∃ e', d.eigenstates.eigvals = [e'] ∧ e' ≤ e + (if nbr then 29 else 38) := by
  have hb : constructBasis blocksCase.config = .ok [[0, 1, 2, 3], [1, 0, 2, 3], [2, 0, 1, 3], [3, 0, 1, 2]] := by decide +kernel
  have hf : blocksCase.config.Full := by unfold Config.Full; decide +kernel
  have hc : RectConf blocksCase.config 1 1 2 := rectConf_ok 1 1 2 1 0 (by omega) (by omega) (by omega)
  have hn : blocksCase.config.nholes + blocksCase.config.nbeta ≤ blocksCase.config.nsites := by decide +kernel
  obtain ⟨r, h1, h2, _⟩ := C80_no_failure_count twoEnv realLib realLib_qr realLib_rand (fun _ => false) blocksCase 1 1 2 hc hf hn (by intro h; cases h) _ hb
    (by decide +kernel) (by decide +kernel) (by intro rows h; cases h)
  obtain ⟨fs', res, e, m1, m2, m3⟩ := C131_saved twoEnv (exactRuns 3) insertionRows_sort emptyDir rfl blocksCase (by norm_num [blocksCase])
    (by norm_num [blocksCase]) (by norm_num [blocksCase]) hc hf hn rfl (by decide +kernel) realLib_qr realLib_eigh r h1 (by rw [h2]; decide +kernel)
    Real.sqrt (fun _ => realLib) (fun _ => realLib_qr) (fun _ => realLib_eigh)
    (fun _ => realLib_ne_zero) (fun _ => realLib_rand) 0 ⟨false, nbr, rev, 1 / 1000000⟩ rfl (fun _ => by decide +kernel)
    (two_squares_geom 1 0 r.determinants rev) (1 / 1000) 20 (by omega)
  refine ⟨r, fs', res, e, m1, m2, fun d hd => ?_⟩
  obtain ⟨P, e', q1, q2, q3, q4, _⟩ := m3 d hd
  refine ⟨e', by rw [← q2.eigenstates]; exact q3, le_trans q4 (le_of_eq ?_)⟩
  have : blocksCase.config.nholes = 1 := by decide +kernel
  unfold fieldHigh
  rw [this]
  cases nbr <;> norm_num [blocksCase]

end TJ
