/-
Two electrons exchanged on a tile: a cycle of hops whose signs do not cancel; and the comparison of the lowest energies.
-/
import Verif.Lemmas.FermiGauge
import Verif.Lemmas.Perron
import Mathlib.Data.Fintype.EquivFin
import Mathlib.Algebra.Order.BigOperators.Ring.Finset

namespace TJ

open Finset Matrix

section
variable {K : Type} [Field K] {n : Nat} (I : Interactions K) (pos : Fin n → Pt) (B : BoolInteractions)

/-- A hop determines its two sites. -/
theorem hop_sites {σ : Conf n} {a b a' b' : Fin n} (ha : σ a = .hole) (hb : σ b ≠ .hole) (ha' : σ a' = .hole) (hb' : σ b' ≠ .hole)
    (h : exch σ a b = exch σ a' b') : a' = a ∧ b' = b := by
  have f1 := congrFun h a'
  have f2 := congrFun h b'
  rw [exch_left] at f1
  rw [exch_right, ha'] at f2
  constructor
  · by_contra hne
    have h2 : a' ≠ b := fun e => hb (e ▸ ha')
    rw [exch_other σ hne h2, ha'] at f1
    exact hb' f1.symm
  · by_contra hne
    have h2 : b' ≠ a := fun e => hb' (e ▸ ha)
    rw [exch_other σ h2 hne] at f2
    exact hb' f2

/-- The fermionic element along a hop. -/
theorem fermi_hop {σ : Conf n} {a b : Fin n} (ha : σ a = .hole) (hb : σ b ≠ .hole) (hn : Near (pos a) (pos b)) :
    fermiEl siteOrder I pos B σ (exch σ a b) = (if B.bt then I.t else 0) * jumpSign K σ a b := by
  have hne : ¬ exch σ a b = σ := by
    intro h
    have := congrFun h a
    rw [exch_left, ha] at this
    exact hb this
  have t1 : hopF I pos σ (exch σ a b) = I.t * jumpSign K σ a b := by
    unfold hopF
    rw [sum_eq_single a, sum_eq_single b]
    · rw [if_pos ⟨ha, hb, hn, rfl⟩]
    · intro b' _ hb'
      rw [if_neg]
      rintro ⟨_, h2, _, h4⟩
      exact hb' (hop_sites ha hb ha h2 h4).2
    · simp
    · intro a' _ ha'
      refine sum_eq_zero fun b' _ => ?_
      rw [if_neg]
      rintro ⟨h1, h2, _, h4⟩
      exact ha' (hop_sites ha hb h1 h2 h4).1
    · simp
  have t2 : staticEl I pos σ (exch σ a b) = 0 := if_neg hne
  have t3 : repEl I pos σ (exch σ a b) = 0 := if_neg hne
  have t4 : flipEl I pos σ (exch σ a b) = 0 := by
    refine sum_eq_zero fun a' _ => sum_eq_zero fun b' _ => if_neg ?_
    rintro ⟨_, _, h3, h4, _, h6⟩
    have h7 := (exch_hole_iff h3 h4 a).2 ha
    rw [← h6, exch_left] at h7
    exact hb h7
  have t5 : nextF I pos σ (exch σ a b) = 0 := by
    refine sum_eq_zero fun a' _ => sum_eq_zero fun b' _ => if_neg ?_
    rintro ⟨h1, h2, ⟨m, h3, h4⟩, h5⟩
    obtain ⟨rfl, rfl⟩ := hop_sites ha hb h1 h2 h5
    have k1 := colourSign_near (K := ℚ) hn
    have k2 := colourSign_two (K := ℚ) h3 h4
    rw [k1] at k2
    norm_num at k2
  rw [fermi_sites, t1, t2, t3, t4, t5]
  cases B.bt <;> simp

end

section
variable {n : Nat}

/-- Two electrons with the same spin and two holes at the corners of a tile, with given numbers of holes and spins. -/
theorem exists_tile {p q u v : Fin n} (hpq : p ≠ q) (hpu : p ≠ u) (hpv : p ≠ v) (hqu : q ≠ u) (hqv : q ≠ v) (huv : u ≠ v) (ρ : Conf n) (s : Bool)
    (h : 2 ≤ ρ.count .hole) (hs : 2 ≤ ρ.count (spinOcc s)) :
    ∃ σ : Conf n, (∀ o, σ.count o = ρ.count o) ∧ σ p = spinOcc s ∧ σ v = spinOcc s ∧ σ q = .hole ∧ σ u = .hole := by
  unfold Conf.count at h hs
  obtain ⟨x1, hx1, x2, hx2, hx⟩ := one_lt_card.1 h
  obtain ⟨y1, hy1, y2, hy2, hy⟩ := one_lt_card.1 hs
  rw [mem_filter] at hx1 hx2 hy1 hy2
  have k : ∀ x y, ρ x = .hole → ρ y = spinOcc s → x ≠ y := by
    rintro x y h1 h2 rfl
    rw [h1] at h2
    exact spinOcc_ne s h2.symm
  have k1 := k _ _ hx1.2 hy1.2
  have k2 := k _ _ hx1.2 hy2.2
  have k3 := k _ _ hx2.2 hy1.2
  have k4 := k _ _ hx2.2 hy2.2
  let f : Fin n → Fin n := fun z => if z = p then y1 else if z = v then y2 else if z = q then x1 else x2
  have fp : f p = y1 := if_pos rfl
  have fv : f v = y2 := by simp [f, hpv.symm]
  have fq : f q = x1 := by simp [f, hpq.symm, hqv]
  have fu : f u = x2 := by simp [f, hpu.symm, huv, hqu.symm]
  obtain ⟨g, hg⟩ := Finset.exists_equiv_extend_of_card_eq (α := Fin n) (t := (univ : Finset (Fin n))) (by simp) (s := {p, v, q, u}) (f := f)
    (subset_univ _) (by
      intro a ha b hb hab
      simp only [coe_insert, coe_singleton, Set.mem_insert_iff, Set.mem_singleton_iff] at ha hb
      rcases ha with rfl | rfl | rfl | rfl <;> rcases hb with rfl | rfl | rfl | rfl <;>
        first
          | rfl
          | exact absurd (fp.symm.trans (hab.trans fv)) hy
          | exact absurd (fp.symm.trans (hab.symm.trans fv)) hy
          | exact absurd (fq.symm.trans (hab.trans fu)) hx
          | exact absurd (fq.symm.trans (hab.symm.trans fu)) hx
          | exact absurd (fq.symm.trans (hab.trans fp)) k1
          | exact absurd (fq.symm.trans (hab.symm.trans fp)) k1
          | exact absurd (fq.symm.trans (hab.trans fv)) k2
          | exact absurd (fq.symm.trans (hab.symm.trans fv)) k2
          | exact absurd (fu.symm.trans (hab.trans fp)) k3
          | exact absurd (fu.symm.trans (hab.symm.trans fp)) k3
          | exact absurd (fu.symm.trans (hab.trans fv)) k4
          | exact absurd (fu.symm.trans (hab.symm.trans fv)) k4)
  let e : Fin n ≃ Fin n := g.trans (Equiv.subtypeUnivEquiv (fun x => mem_univ x))
  have he : ∀ z, z ∈ ({p, v, q, u} : Finset (Fin n)) → e z = f z := fun z hz => hg z hz
  refine ⟨fun z => ρ (e z), fun o => count_comp ρ e o, ?_, ?_, ?_, ?_⟩
  · show ρ (e p) = _
    rw [he p (by simp), fp, hy1.2]
  · show ρ (e v) = _
    rw [he v (by simp), fv, hy2.2]
  · show ρ (e q) = _
    rw [he q (by simp), fq, hx1.2]
  · show ρ (e u) = _
    rw [he u (by simp), fu, hx2.2]

/-- The corners of the first tile of a rectangle. -/
theorem first_tile {W H : Nat} (hW : 2 ≤ W) (hH : 2 ≤ H) (hn : n = W * H) : ∃ p q u v : Fin n, p.1 = 0 ∧ q.1 = 1 ∧ u.1 = W ∧ v.1 = W + 1 ∧
    Near (gridPos W p) (gridPos W q) ∧ Near (gridPos W u) (gridPos W v) ∧ Near (gridPos W p) (gridPos W u) ∧ Near (gridPos W q) (gridPos W v) := by
  have h1 : 2 * W ≤ n := by
    rw [hn, Nat.mul_comm]
    exact Nat.mul_le_mul_left _ hH
  have d1 : (W + 1) % W = 1 := by rw [Nat.add_mod_left, Nat.mod_eq_of_lt (by omega)]
  have d2 : (W + 1) / W = 1 := by rw [Nat.add_div_left _ (by omega), Nat.div_eq_of_lt (by omega)]
  have d3 : W / W = 1 := Nat.div_self (by omega)
  refine ⟨⟨0, by omega⟩, ⟨1, by omega⟩, ⟨W, by omega⟩, ⟨W + 1, by omega⟩, rfl, rfl, rfl, rfl, ?_, ?_, ?_, ?_⟩ <;>
    · unfold Near gridPos
      simp only [d1, d2, d3, Nat.mod_self, Nat.zero_mod, Nat.zero_div, Nat.mod_eq_of_lt (show 1 < W by omega), Nat.div_eq_of_lt (show 1 < W by omega)]
      decide

/-- Two electrons with the same spin exchange their places on a tile by four hops; the product of the signs is `-1`. -/
theorem tile_cycle (K : Type) [Field K] {W : Nat} (hW : 2 ≤ W) {p q u v : Fin n} (hp : p.1 = 0) (hq : q.1 = 1) (hu : u.1 = W) (hv : v.1 = W + 1)
    {σ : Conf n} {o : Occ} (ho : o ≠ .hole) (h1 : σ p = o) (h2 : σ v = o) (h3 : σ q = .hole) (h4 : σ u = .hole) :
    ∃ σ2 σ3 σ4 : Conf n, (σ2 = exch σ q v ∧ σ q = .hole ∧ σ v ≠ .hole) ∧ (σ3 = exch σ2 u p ∧ σ2 u = .hole ∧ σ2 p ≠ .hole) ∧
      (σ4 = exch σ3 p q ∧ σ3 p = .hole ∧ σ3 q ≠ .hole) ∧ (σ = exch σ4 v u ∧ σ4 v = .hole ∧ σ4 u ≠ .hole) ∧
      jumpSign K σ q v * jumpSign K σ2 u p * jumpSign K σ3 p q * jumpSign K σ4 v u = -1 := by
  have hpq : p ≠ q := fun e => by rw [e] at hp; omega
  have hpu : p ≠ u := fun e => by rw [e] at hp; omega
  have hpv : p ≠ v := fun e => by rw [e] at hp; omega
  have hqu : q ≠ u := fun e => by rw [e] at hq; omega
  have hqv : q ≠ v := fun e => by rw [e] at hq; omega
  have huv : u ≠ v := fun e => by rw [e] at hu; omega
  -- the four occupations at the corners
  have a1 : exch σ q v q = o := by rw [exch_left, h2]
  have a2 : exch σ q v v = .hole := by rw [exch_right, h3]
  have a3 : exch σ q v p = o := by rw [exch_other σ hpq hpv, h1]
  have a4 : exch σ q v u = .hole := by rw [exch_other σ hqu.symm huv, h4]
  have b1 : exch (exch σ q v) u p p = .hole := by rw [exch_right, a4]
  have b2 : exch (exch σ q v) u p u = o := by rw [exch_left, a3]
  have b3 : exch (exch σ q v) u p q = o := by rw [exch_other _ hqu hpq.symm, a1]
  have b4 : exch (exch σ q v) u p v = .hole := by rw [exch_other _ huv.symm hpv.symm, a2]
  have c1 : exch (exch (exch σ q v) u p) p q p = o := by rw [exch_left, b3]
  have c2 : exch (exch (exch σ q v) u p) p q q = .hole := by rw [exch_right, b1]
  have c3 : exch (exch (exch σ q v) u p) p q u = o := by rw [exch_other _ hpu.symm hqu.symm, b2]
  have c4 : exch (exch (exch σ q v) u p) p q v = .hole := by rw [exch_other _ hpv.symm hqv.symm, b4]
  refine ⟨exch σ q v, exch (exch σ q v) u p, exch (exch (exch σ q v) u p) p q, ⟨rfl, h3, by rw [h2]; exact ho⟩, ⟨rfl, a4, by rw [a3]; exact ho⟩,
    ⟨rfl, b1, by rw [b3]; exact ho⟩, ⟨?_, c4, by rw [c3]; exact ho⟩, ?_⟩
  · funext z
    by_cases z1 : z = v
    · rw [z1, exch_left, c3, h2]
    · by_cases z2 : z = u
      · rw [z2, exch_right, c4, h4]
      · rw [exch_other _ z1 z2]
        by_cases z3 : z = p
        · rw [z3, c1, h1]
        · by_cases z4 : z = q
          · rw [z4, c2, h3]
          · rw [exch_other _ z3 z4, exch_other _ z2 z3, exch_other _ z4 z1]
  · have j3 : jumpSign K (exch (exch σ q v) u p) p q = 1 := by
      refine prod_eq_one fun z _ => if_neg ?_
      rintro ⟨h | h, _⟩ <;> (have k1 := Fin.lt_def.1 h.1; have k2 := Fin.lt_def.1 h.2; omega)
    have j4 : jumpSign K (exch (exch (exch σ q v) u p) p q) v u = 1 := by
      refine prod_eq_one fun z _ => if_neg ?_
      rintro ⟨h | h, _⟩ <;> (have k1 := Fin.lt_def.1 h.1; have k2 := Fin.lt_def.1 h.2; omega)
    rw [j3, j4, mul_one, mul_one]
    unfold jumpSign
    rw [← prod_mul_distrib, prod_eq_single q]
    · have e1 : ¬ (((q < q ∧ q < v) ∨ (v < q ∧ q < q)) ∧ σ q ≠ .hole) := fun h => h.2 h3
      have e2 : ((u < q ∧ q < p) ∨ (p < q ∧ q < u)) ∧ exch σ q v q ≠ .hole := by
        refine ⟨Or.inr ⟨Fin.lt_def.2 (by omega), Fin.lt_def.2 (by omega)⟩, ?_⟩
        rw [a1]
        exact ho
      rw [if_neg e1, if_pos e2, one_mul]
    · intro z _ hz
      have z1 : z.1 ≠ 1 := fun h => hz (Fin.ext (by rw [h, hq]))
      by_cases z2 : z = v
      · have e1 : ¬ (((q < z ∧ z < v) ∨ (v < z ∧ z < q)) ∧ σ z ≠ .hole) := by
          rintro ⟨h | h, _⟩ <;> rw [z2] at h <;> (have k1 := Fin.lt_def.1 h.1; have k2 := Fin.lt_def.1 h.2; omega)
        have e2 : ¬ (((u < z ∧ z < p) ∨ (p < z ∧ z < u)) ∧ exch σ q v z ≠ .hole) := by
          rw [z2, a2]
          exact fun h => h.2 rfl
        rw [if_neg e1, if_neg e2, one_mul]
      · rw [exch_other σ hz z2]
        by_cases z3 : σ z = .hole
        · rw [if_neg (fun h => h.2 z3), if_neg (fun h => h.2 z3), one_mul]
        · have z4 : z ≠ u := fun h => z3 (h ▸ h4)
          have z5 : z.1 ≠ W := fun h => z4 (Fin.ext (by rw [h, hu]))
          have e : (((q < z ∧ z < v) ∨ (v < z ∧ z < q)) ∧ σ z ≠ .hole) ↔ (((u < z ∧ z < p) ∨ (p < z ∧ z < u)) ∧ σ z ≠ .hole) := by
            refine and_congr_left fun _ => ?_
            simp only [Fin.lt_def, hp, hq, hu, hv]
            omega
          rw [if_congr e rfl rfl]
          split_ifs <;> ring
    · exact fun h => absurd (mem_univ _) h

end

/-! ### Comparison of lowest energies -/

/-- A matrix whose elements are not larger than those of a matrix with the sign rule has a higher lowest eigenvalue, unless both differ by signs of
the basis vectors only. -/
theorem compare_lowest {d : Nat} {A F : Matrix (Fin d) (Fin d) ℝ} {e f : ℝ} (hA : A.IsSymm) (s : Fin d → ℝ) (hs : ∀ i, s i * s i = 1)
    (hneg : ∀ i j, i ≠ j → s i * s j * A i j ≤ 0)
    (hconn : ∀ i j, Relation.ReflTransGen (fun i j => i ≠ j ∧ s i * s j * A i j < 0) i j)
    (hmin : ∀ x, e * (x ⬝ᵥ x) ≤ x ⬝ᵥ (A *ᵥ x)) (hdiag : ∀ i, F i i = A i i) (habs : ∀ i j, i ≠ j → |F i j| ≤ - (s i * s j * A i j))
    (v : Fin d → ℝ) (hv : F *ᵥ v = f • v) (hne : v ≠ 0) :
    e < f ∨ ∃ g : Fin d → ℝ, (∀ i, g i * g i = 1) ∧ ∀ i j, A i j = g i * g j * F i j := by
  set y : Fin d → ℝ := fun i => s i * |v i| with hy
  have term : ∀ i j, y i * (A i j * y j) ≤ v i * (F i j * v j) := by
    intro i j
    by_cases hij : i = j
    · subst hij
      have e1 : y i * (A i i * y i) = s i * s i * A i i * (|v i| * |v i|) := by rw [hy]; ring
      rw [e1, hs, abs_mul_abs_self, hdiag]
      linarith
    · have e1 : y i * (A i j * y j) = s i * s j * A i j * (|v i| * |v j|) := by rw [hy]; ring
      have e2 : v i * (F i j * v j) = F i j * (v i * v j) := by ring
      rw [e1, e2]
      have h1 : - (|F i j| * |v i * v j|) ≤ F i j * (v i * v j) := by
        rw [← abs_mul]
        exact neg_abs_le _
      have h2 := mul_le_mul_of_nonneg_right (habs i j hij) (abs_nonneg (v i * v j))
      rw [abs_mul (v i)] at h1 h2
      linarith
  have hyy : y ⬝ᵥ y = v ⬝ᵥ v := by
    refine sum_congr rfl fun i _ => ?_
    have : y i * y i = s i * s i * (|v i| * |v i|) := by rw [hy]; ring
    rw [this, hs, abs_mul_abs_self, one_mul]
  have quad : ∀ (C : Matrix (Fin d) (Fin d) ℝ) (z : Fin d → ℝ), z ⬝ᵥ (C *ᵥ z) = ∑ i, ∑ j, z i * (C i j * z j) := by
    intro C z
    simp only [dotProduct, mulVec, mul_sum]
  have hvv : v ⬝ᵥ (F *ᵥ v) = f * (v ⬝ᵥ v) := by rw [hv, dotProduct_smul, smul_eq_mul]
  have hle : y ⬝ᵥ (A *ᵥ y) ≤ v ⬝ᵥ (F *ᵥ v) := by
    rw [quad, quad]
    exact sum_le_sum fun i _ => sum_le_sum fun j _ => term i j
  have hpos : 0 < v ⬝ᵥ v := by
    have h0 : 0 ≤ v ⬝ᵥ v := sum_nonneg fun i _ => mul_self_nonneg _
    exact lt_of_le_of_ne h0 (fun h => hne (dotProduct_self_eq_zero.1 h.symm))
  rcases lt_or_ge e f with h | h
  · exact Or.inl h
  right
  have hmin' := hmin y
  rw [hyy] at hmin'
  have hef : f * (v ⬝ᵥ v) ≤ e * (v ⬝ᵥ v) := mul_le_mul_of_nonneg_right h hpos.le
  have heq : y ⬝ᵥ (A *ᵥ y) = v ⬝ᵥ (F *ᵥ v) := le_antisymm hle (by rw [hvv]; linarith)
  have hey : A *ᵥ y = e • y := eigen_of_min hA hmin y (by rw [hyy]; linarith)
  have hterm : ∀ i j, y i * (A i j * y j) = v i * (F i j * v j) := by
    rw [quad, quad] at heq
    intro i j
    have h1 := (sum_eq_sum_iff_of_le (fun i _ => sum_le_sum fun j _ => term i j)).1 heq i (mem_univ _)
    exact (sum_eq_sum_iff_of_le (fun j _ => term i j)).1 h1 j (mem_univ _)
  have hyne : y ≠ 0 := by
    intro h0
    rw [h0, zero_dotProduct] at hyy
    linarith
  have hp := perron hA s hs hneg hconn hmin y hey hyne
  have hv0 : ∀ i, v i ≠ 0 := by
    intro i h0
    have := hp i i
    have e0 : y i = 0 := by rw [hy]; simp [h0]
    rw [e0] at this
    simp at this
  have ha0 : ∀ i, |v i| ≠ 0 := fun i => abs_ne_zero.2 (hv0 i)
  refine ⟨fun i => s i * (v i / |v i|), fun i => ?_, fun i j => ?_⟩
  · have e1 : s i * (v i / |v i|) * (s i * (v i / |v i|)) = s i * s i * ((v i * v i) / (|v i| * |v i|)) := by
      rw [div_eq_mul_inv, div_eq_mul_inv, mul_inv]
      ring
    rw [e1, hs, abs_mul_abs_self, div_self (mul_self_ne_zero.2 (hv0 i)), one_mul]
  · have h1 := hterm i j
    have e1 : y i * (A i j * y j) = s i * s j * A i j * (|v i| * |v j|) := by rw [hy]; ring
    rw [e1] at h1
    have e2 : A i j = s i * s j * (s i * s j * A i j) := by linear_combination (-(A i j) * (s j * s j)) * hs i - A i j * hs j
    have e3 : s i * s j * A i j = v i * (F i j * v j) / (|v i| * |v j|) := by
      rw [eq_div_iff (mul_ne_zero (ha0 i) (ha0 j)), h1]
    rw [e2, e3]
    show s i * s j * (v i * (F i j * v j) / (|v i| * |v j|)) = s i * (v i / |v i|) * (s j * (v j / |v j|)) * F i j
    rw [div_eq_mul_inv, div_eq_mul_inv, div_eq_mul_inv, mul_inv]
    ring

end TJ
