/-
The collinearity test on lattices with a position for every site.
-/
import Verif.Lemmas.Lattice
import Verif.Spec.Lattice

namespace TJ

/-- Facts about a path `a - m - b` of the bond graph used by the prologue. -/
structure PathIn (bond : NdMat) (a m b : Nat) : Prop where
  ha : a < bond.rows
  hm : m < bond.rows
  hb : b < bond.rows
  ham : a ≠ m
  hmb : m ≠ b
  hab : a ≠ b
  eam : bond.e a m = 1
  ema : bond.e m a = 1
  emb : bond.e m b = 1
  ebm : bond.e b m = 1
  eab : bond.e a b = 0
  eba : bond.e b a = 0
  eaa : bond.e a a = 0
  emm : bond.e m m = 0
  ebb : bond.e b b = 0

theorem PathIn.symm {bond : NdMat} {a m b : Nat} (h : PathIn bond a m b) : PathIn bond b m a :=
  ⟨h.hb, h.hm, h.ha, h.hmb.symm, h.ham.symm, h.hab.symm, h.ebm, h.emb, h.ema, h.eam, h.eba, h.eab, h.ebb, h.emm, h.eaa⟩

theorem prologue_path {bond : NdMat} {a m b : Nat} (h : PathIn bond a m b) :
    linearPrologue bond a m b = .ok (min a b, m, max a b) ∧
    linearPrologue bond a b m = .ok (min a b, m, max a b) ∧
    linearPrologue bond m a b = .ok (min a b, m, max a b) := by
  obtain ⟨ha, hm, hb, ham, hmb, hab, eam, ema, emb, ebm, eab, eba, eaa, emm, ebb⟩ := h
  refine ⟨?_, ?_, ?_⟩ <;>
    simp [linearPrologue, ha, hm, hb, ham, hmb, hab, ham.symm, hmb.symm, hab.symm, eam, ema, emb, ebm, eab, eba, eaa, emm, ebb]

/-- The prologue on a path given in any order. -/
theorem prologue_any {bond : NdMat} {a m b : Nat} (h : PathIn bond a m b) {s1 s2 s3 : Nat}
    (hp : [s1, s2, s3].Perm [a, m, b]) : linearPrologue bond s1 s2 s3 = .ok (min a b, m, max a b) := by
  obtain ⟨p1, p2, p3⟩ := prologue_path h
  obtain ⟨q1, q2, q3⟩ := prologue_path h.symm
  rw [Nat.min_comm, Nat.max_comm] at q1 q2 q3
  have hmem : ∀ s ∈ [s1, s2, s3], s = a ∨ s = m ∨ s = b := by
    intro s hs
    have := hp.subset hs
    simpa using this
  have h1 := hmem s1 (by simp)
  have h2 := hmem s2 (by simp)
  have h3 := hmem s3 (by simp)
  have hnd : [s1, s2, s3].Nodup := hp.nodup_iff.2 (by simp [h.ham, h.hmb, h.hab])
  simp at hnd
  obtain ⟨⟨n1, n2⟩, n3⟩ := hnd
  rcases h1 with rfl | rfl | rfl <;> rcases h2 with rfl | rfl | rfl <;> rcases h3 with rfl | rfl | rfl <;>
    first | exact absurd rfl n1 | exact absurd rfl n2 | exact absurd rfl n3 | assumption

/-- A path of the plane is a path of the bond graph. -/
theorem pathIn_of_near {bond : NdMat} {pos : Nat → Pt}
    (hbond : ∀ i < bond.rows, ∀ j < bond.rows, bond.e i j = nnInd pos i j)
    {a m b : Nat} (ha : a < bond.rows) (hm : m < bond.rows) (hb : b < bond.rows) (hab : a ≠ b)
    (h1 : Near (pos a) (pos m)) (h2 : Near (pos m) (pos b)) : PathIn bond a m b := by
  have irr : ∀ p : Pt, ¬ Near p p := by intro p; unfold Near; simp
  have bip : ¬ Near (pos a) (pos b) := by
    intro h3
    unfold Near at *
    omega
  refine ⟨ha, hm, hb, ?_, ?_, hab, ?_, ?_, ?_, ?_, ?_, ?_, ?_, ?_, ?_⟩
  · rintro rfl; exact irr _ h1
  · rintro rfl; exact irr _ h2
  · rw [hbond a ha m hm]; exact if_pos h1
  · rw [hbond m hm a ha]; exact if_pos ((near_comm _ _).1 h1)
  · rw [hbond m hm b hb]; exact if_pos h2
  · rw [hbond b hb m hm]; exact if_pos ((near_comm _ _).1 h2)
  · rw [hbond a ha b hb]; exact if_neg bip
  · rw [hbond b hb a ha]; exact if_neg (fun h => bip ((near_comm _ _).1 h))
  · rw [hbond a ha a ha]; exact if_neg (irr _)
  · rw [hbond m hm m hm]; exact if_neg (irr _)
  · rw [hbond b hb b hb]; exact if_neg (irr _)

/-- Index difference of neighbours of a row-by-row lattice. -/
theorem absDiff_near {W a b : Nat} (h : Near (gridPos W a) (gridPos W b)) :
    ((gridPos W a).2 = (gridPos W b).2 ∧ absDiff a b = 1) ∨ ((gridPos W a).1 = (gridPos W b).1 ∧ absDiff a b = W) := by
  rw [near_gridPos_iff] at h
  have da := Nat.div_add_mod a W
  have db := Nat.div_add_mod b W
  unfold absDiff gridPos
  rcases h with ⟨h1, h2⟩ | ⟨h1, h2⟩
  · left
    rw [h1] at da
    refine ⟨by simp only; omega, by omega⟩
  · right
    rw [h1] at da
    refine ⟨by simp only; omega, ?_⟩
    rcases h2 with h2 | h2
    · rw [h2] at da
      have : W * (b / W + 1) = W * (b / W) + W := by ring
      omega
    · rw [h2] at db
      have : W * (a / W + 1) = W * (a / W) + W := by ring
      omega

theorem gridPos_inj {W : Nat} {i j : Nat} (h : gridPos W i = gridPos W j) : i = j := by
  unfold gridPos at h
  simp only [Prod.mk.injEq] at h
  rw [← Nat.div_add_mod i W, ← Nat.div_add_mod j W, show i / W = j / W by omega, show i % W = j % W by omega]

/-- The comparison of index differences decides alignment on a row-by-row lattice. -/
theorem diff_eq_iff_aligned {W a m b : Nat} (hab : a ≠ b) (h1 : Near (gridPos W a) (gridPos W m))
    (h2 : Near (gridPos W m) (gridPos W b)) :
    absDiff b m = absDiff m a ↔ Aligned (gridPos W a) (gridPos W m) (gridPos W b) := by
  have e1 : absDiff m a = absDiff a m := by unfold absDiff; omega
  have e2 : absDiff b m = absDiff m b := by unfold absDiff; omega
  have d1 := absDiff_near h1
  have d2 := absDiff_near h2
  rw [e1, e2]
  -- a horizontal bond needs at least two columns
  have hor : ∀ p q : Nat, Near (gridPos W p) (gridPos W q) → (gridPos W p).2 = (gridPos W q).2 → W ≠ 1 := by
    intro p q h3 h4 hW
    subst hW
    rw [near_iff] at h3
    unfold gridPos at *
    simp only [Nat.mod_one, Nat.div_one] at *
    omega
  have k1 := hor a m h1
  have k2 := hor m b h2
  have hinj : gridPos W a ≠ gridPos W b := fun h => hab (gridPos_inj h)
  rw [near_iff] at h1 h2
  unfold Aligned
  have hne : (gridPos W a).1 ≠ (gridPos W b).1 ∨ (gridPos W a).2 ≠ (gridPos W b).2 := by
    by_contra hc
    push Not at hc
    exact hinj (Prod.ext hc.1 hc.2)
  constructor
  · intro h
    rcases d1 with ⟨u1, u2⟩ | ⟨u1, u2⟩ <;> rcases d2 with ⟨v1, v2⟩ | ⟨v1, v2⟩
    · exact Or.inr ⟨u1, v1⟩
    · exact absurd (by omega) (k1 u1)
    · exact absurd (by omega) (k2 v1)
    · exact Or.inl ⟨u1, v1⟩
  · intro h
    rcases h with ⟨x1, x2⟩ | ⟨x1, x2⟩
    · have u : absDiff a m = W := by
        rcases d1 with ⟨u1, _⟩ | ⟨_, u2⟩
        · omega
        · exact u2
      have v : absDiff m b = W := by
        rcases d2 with ⟨u1, _⟩ | ⟨_, u2⟩
        · omega
        · exact u2
      rw [u, v]
    · have u : absDiff a m = 1 := by
        rcases d1 with ⟨_, u2⟩ | ⟨u1, _⟩
        · exact u2
        · omega
      have v : absDiff m b = 1 := by
        rcases d2 with ⟨_, u2⟩ | ⟨u1, _⟩
        · exact u2
        · omega
      rw [u, v]

theorem aligned_symm {p q r : Pt} : Aligned p q r ↔ Aligned r q p := by
  unfold Aligned
  constructor <;> rintro (⟨a, b⟩ | ⟨a, b⟩)
  · exact Or.inl ⟨b.symm, a.symm⟩
  · exact Or.inr ⟨b.symm, a.symm⟩
  · exact Or.inl ⟨b.symm, a.symm⟩
  · exact Or.inr ⟨b.symm, a.symm⟩

/-- `is_bond_linear` on a row-by-row lattice of type 'periodic'. -/
theorem periodic_linear {bond : NdMat} {W : Nat}
    (hbond : ∀ i < bond.rows, ∀ j < bond.rows, bond.e i j = nnInd (gridPos W) i j)
    {a m b : Nat} (ha : a < bond.rows) (hm : m < bond.rows) (hb : b < bond.rows) (hab : a ≠ b)
    (h1 : Near (gridPos W a) (gridPos W m)) (h2 : Near (gridPos W m) (gridPos W b)) {s1 s2 s3 : Nat}
    (hp : [s1, s2, s3].Perm [a, m, b]) :
    isBondLinearPeriodic bond s1 s2 s3 = .ok (decide (Aligned (gridPos W a) (gridPos W m) (gridPos W b))) := by
  have hpath := pathIn_of_near hbond ha hm hb hab h1 h2
  unfold isBondLinearPeriodic
  rw [prologue_any hpath hp]
  show Except.ok _ = _
  congr 1
  simp only [decide_eq_decide]
  rcases Nat.lt_or_gt_of_ne hab with h | h
  · rw [Nat.min_eq_left (by omega), Nat.max_eq_right (by omega)]
    exact diff_eq_iff_aligned hab h1 h2
  · rw [Nat.min_eq_right (by omega), Nat.max_eq_left (by omega)]
    rw [diff_eq_iff_aligned hab.symm ((near_comm _ _).1 h2) ((near_comm _ _).1 h1), aligned_symm]

theorem RectConf.spec {c : Config} {nbh nbv nb : Nat} (h : RectConf c nbh nbv nb) :
    c.nsites = (nbh * nb) * (nbv * nb) ∧
      ∀ i < c.nsites, ∀ j < c.nsites, c.bond.e i j = nnInd (gridPos (nbh * nb)) i j := by
  obtain ⟨m, a1, a2, a3, a4⟩ := rect_eq nbh nbv nb h.hh h.hv h.hb
  rw [h.bond] at a1
  obtain rfl := Except.ok.inj a1
  unfold Config.nsites
  rw [a2]
  exact ⟨rfl, a4⟩

theorem RectConf.geom {c : Config} {nbh nbv nb : Nat} (E : Env) (h : RectConf c nbh nbv nb) :
    GeomLattice E c (gridPos (nbh * nb)) where
  inj := fun i _ j _ e => gridPos_inj e
  bond := h.spec.2
  linear := by
    intro a ha m hm b hb hab h1 h2 s1 s2 s3 hp
    unfold isBondLinear
    rw [h.ltype]
    exact periodic_linear h.spec.2 ha hm hb hab h1 h2 hp
  tile := by
    intro a ha b hb h3
    have hn := h.spec.1
    have hW : 1 ≤ nbh * nb := Nat.mul_pos h.hh h.hb
    rw [hn] at ha hb ⊢
    generalize nbh * nb = W at *
    generalize nbv * nb = H at *
    have a1 := Nat.mod_lt a (show W > 0 by omega)
    have b1 := Nat.mod_lt b (show W > 0 by omega)
    have b2 : b / W < H := Nat.div_lt_of_lt_mul hb
    have hlt : W * (b / W) + a % W < W * H := by
      calc W * (b / W) + a % W < W * (b / W) + W := by omega
        _ = W * (b / W + 1) := by ring
        _ ≤ W * H := Nat.mul_le_mul_left _ b2
    obtain ⟨q1, q2⟩ := (eq_iff_divmod (i := W * (b / W) + a % W) a1).1 rfl
    refine ⟨_, hlt, ?_, ?_⟩
    · unfold Diagonal at h3
      unfold Near
      unfold gridPos at *
      rw [q1, q2]
      simp only at *
      omega
    · unfold Diagonal at h3
      unfold Near
      unfold gridPos at *
      rw [q1, q2]
      simp only at *
      omega

/-! ### Peripheral lattices -/

theorem periPos_block {W H s : Nat} (h : s < W * H) : periPos W H s = gridPos W s := if_pos h

/-- Coordinates of a block site. -/
theorem gridPos_range {W H s : Nat} (hW : 1 ≤ W) (h : s < W * H) : 0 ≤ (gridPos W s).1 ∧ (gridPos W s).1 < W ∧
    0 ≤ (gridPos W s).2 ∧ (gridPos W s).2 < H := by
  have a1 := Nat.mod_lt s (show W > 0 by omega)
  have a2 : s / W < H := Nat.div_lt_of_lt_mul h
  unfold gridPos
  simp only
  generalize s / W = y at *
  generalize s % W = x at *
  omega

/-- Coordinates of a peripheral site. -/
theorem periPos_class {W H s : Nat} (h1 : W * H ≤ s) (h2 : s < W * H + 2 * (W + H)) :
    (onLowerOrUpper (W * H) W H s = true ∧ ((periPos W H s).2 = -1 ∨ (periPos W H s).2 = H) ∧ 0 ≤ (periPos W H s).1 ∧
      (periPos W H s).1 < W) ∨
    (onLowerOrUpper (W * H) W H s = false ∧ ((periPos W H s).1 = -1 ∨ (periPos W H s).1 = W) ∧ 0 ≤ (periPos W H s).2 ∧
      (periPos W H s).2 < H) := by
  unfold periPos onLowerOrUpper
  rw [if_neg (by omega)]
  obtain ⟨t, rfl⟩ : ∃ t, s = W * H + t := ⟨s - W * H, by omega⟩
  simp only [Nat.add_sub_cancel_left, decide_eq_true_eq, decide_eq_false_iff_not]
  have ht : t < 2 * (W + H) := by omega
  generalize W * H = n at *
  by_cases k1 : t < W
  · rw [if_pos k1]; left; refine ⟨by omega, ?_, ?_, ?_⟩ <;> simp only [true_or, or_true] <;> omega
  · rw [if_neg k1]
    by_cases k2 : t < W + H
    · rw [if_pos k2]; right; refine ⟨by omega, ?_, ?_, ?_⟩ <;> simp only [true_or, or_true] <;> omega
    · rw [if_neg k2]
      by_cases k3 : t < 2 * W + H
      · rw [if_pos k3]; left; refine ⟨by omega, ?_, ?_, ?_⟩ <;> simp only [true_or, or_true] <;> omega
      · rw [if_neg k3]; right; refine ⟨by omega, ?_, ?_, ?_⟩ <;> simp only [true_or, or_true] <;> omega

theorem PeriConf.spec {c : Config} (h : PeriConf c) :
    c.nsites = (c.nbh * c.nblocs) * (c.nbv * c.nblocs) + 2 * (c.nbh * c.nblocs + c.nbv * c.nblocs) ∧
      ∀ i < c.nsites, ∀ j < c.nsites, c.bond.e i j = nnInd (periPos (c.nbh * c.nblocs) (c.nbv * c.nblocs)) i j := by
  obtain ⟨m, a1, a2, a3, a4⟩ := neel_eq c.nbh c.nbv c.nblocs _ _ rfl rfl (Nat.mul_pos h.hh h.hb) (Nat.mul_pos h.hv h.hb)
  rw [h.bond] at a1
  obtain rfl := Except.ok.inj a1
  have e : c.nsites = c.bond.rows := rfl
  rw [e, a2]
  exact ⟨rfl, a4⟩

theorem periPos_inj {W H : Nat} (hW : 1 ≤ W) {i j : Nat} (hi : i < W * H + 2 * (W + H)) (hj : j < W * H + 2 * (W + H))
    (h : periPos W H i = periPos W H j) : i = j := by
  by_cases k : i < W * H
  · by_cases l : j < W * H
    · rw [periPos_block k, periPos_block l] at h
      exact gridPos_inj h
    · have c := periPos_class (W := W) (H := H) (by omega) hj
      have g := gridPos_range hW k
      rw [periPos_block k] at h
      rw [← h] at c
      omega
  · by_cases l : j < W * H
    · have c := periPos_class (W := W) (H := H) (by omega) hi
      have g := gridPos_range hW l
      rw [periPos_block l] at h
      rw [h] at c
      omega
    · unfold periPos at h
      rw [if_neg k, if_neg l] at h
      obtain ⟨s, rfl⟩ : ∃ t, i = W * H + t := ⟨i - W * H, by omega⟩
      obtain ⟨t, rfl⟩ : ∃ t, j = W * H + t := ⟨j - W * H, by omega⟩
      simp only [Nat.add_sub_cancel_left] at h
      have hs : s < 2 * (W + H) := by omega
      have ht : t < 2 * (W + H) := by omega
      generalize W * H = n at *
      split_ifs at h <;> simp only [Prod.mk.injEq] at h <;> omega

/-- The decision of `is_bond_linear` after the prologue, for ordered ends. -/
theorem peri_linear_ordered {c : Config} (hc : PeriConf c) (hW2 : 2 ≤ c.nbh * c.nblocs) (hH2 : 2 ≤ c.nbv * c.nblocs)
    (E : Env) {a m b s1 s2 s3 : Nat} (ha : a < c.nsites) (hm : m < c.nsites) (hb : b < c.nsites) (hab : a < b)
    (h1 : Near (periPos (c.nbh * c.nblocs) (c.nbv * c.nblocs) a) (periPos (c.nbh * c.nblocs) (c.nbv * c.nblocs) m))
    (h2 : Near (periPos (c.nbh * c.nblocs) (c.nbv * c.nblocs) m) (periPos (c.nbh * c.nblocs) (c.nbv * c.nblocs) b))
    (hp : [s1, s2, s3].Perm [a, m, b]) :
    isBondLinear E c s1 s2 s3 = .ok (decide (Aligned (periPos (c.nbh * c.nblocs) (c.nbv * c.nblocs) a)
      (periPos (c.nbh * c.nblocs) (c.nbv * c.nblocs) m) (periPos (c.nbh * c.nblocs) (c.nbv * c.nblocs) b))) := by
  have hpath := pathIn_of_near hc.spec.2 ha hm hb (by omega) h1 h2
  have hpro := prologue_any hpath hp
  rw [Nat.min_eq_left (by omega), Nat.max_eq_right (by omega)] at hpro
  unfold isBondLinear
  rw [hc.ltype]
  simp only
  rw [hpro]
  show (if _ then _ else _ : Py Bool) = _
  simp only
  have hn : c.nbh * c.nbv * c.nblocs ^ 2 = c.nbh * c.nblocs * (c.nbv * c.nblocs) := by ring
  have hr := rect_eq c.nbh c.nbv c.nblocs hc.hh hc.hv hc.hb
  have hns := hc.spec.1
  rw [hns] at ha hm hb
  rw [hn]
  clear hpro hpath hn hns hp
  generalize c.nbh * c.nblocs = W at *
  generalize c.nbv * c.nblocs = H at *
  have hW : 1 ≤ W := by omega
  have cl := fun s (h1 : W * H ≤ s) h2 => @periPos_class W H s h1 h2
  have gr := fun s h => @gridPos_range W H s hW h
  have pb := fun s h => @periPos_block W H s h
  by_cases la : a < W * H <;> by_cases lm : m < W * H <;> by_cases lb : b < W * H
  · -- all in the block
    rw [if_pos ⟨la, lm, lb⟩]
    obtain ⟨P, r1, r2, r3, r4⟩ := hr
    rw [pb a la, pb m lm] at *
    rw [pb b lb] at *
    refine bind_ok r1 ?_
    rw [← r2] at r4 la lm lb
    exact periodic_linear r4 la lm lb (by omega) h1 h2 (List.Perm.refl _)
  · -- one peripheral site, at the end
    have ka : decide (W * H ≤ a) = !decide (a < W * H) := by simp only [← Nat.not_lt, decide_not]
    have km : decide (W * H ≤ m) = !decide (m < W * H) := by simp only [← Nat.not_lt, decide_not]
    have kb : decide (W * H ≤ b) = !decide (b < W * H) := by simp only [← Nat.not_lt, decide_not]
    simp only [la, lm, lb, decide_true, decide_false, Bool.not_true, Bool.not_false] at ka km kb
    rw [if_neg (by omega), if_neg (by omega), if_neg (by simp only [List.filter_cons, List.filter_nil, ka, km, kb]; simp)]
    have cb := cl b (by omega) hb
    have ga := gr a la
    have gm := gr m lm
    rw [pb a la, pb m lm] at *
    have hd := absDiff_near h1
    have hd' : absDiff m a = absDiff a m := by unfold absDiff; omega
    rw [near_iff] at h1 h2
    generalize hv : onLowerOrUpper (W * H) W H b = v at *
    rw [hd']
    have key : Aligned (gridPos W a) (gridPos W m) (periPos W H b) ↔ ((absDiff a m = 1) ↔ v = false) := by
      unfold Aligned
      rcases cb with ⟨rfl, cb⟩ | ⟨rfl, cb⟩
      · simp only [Bool.true_eq_false, iff_false]
        omega
      · simp only [iff_true]
        omega
    by_cases hh : absDiff a m = 1
    · rw [if_pos hh]
      simp only [hh, true_iff] at key
      simp only [key]
      cases v <;> rfl
    · rw [if_neg hh]
      simp only [hh, false_iff, Bool.not_eq_false] at key
      simp only [key]
      cases v <;> rfl
  · exfalso
    have ca := cl m (by omega) hm
    have ga := gr a la
    have gb := gr b lb
    rw [pb a la] at *
    rw [pb b lb] at *
    have : gridPos W a ≠ gridPos W b := fun h => by have := gridPos_inj h; omega
    have hne : (gridPos W a).1 ≠ (gridPos W b).1 ∨ (gridPos W a).2 ≠ (gridPos W b).2 := by
      by_contra hc
      push Not at hc
      exact this (Prod.ext hc.1 hc.2)
    rw [near_iff] at h1 h2
    omega
  · -- a in the block, m and b peripheral
    have ka : decide (W * H ≤ a) = !decide (a < W * H) := by simp only [← Nat.not_lt, decide_not]
    have km : decide (W * H ≤ m) = !decide (m < W * H) := by simp only [← Nat.not_lt, decide_not]
    have kb : decide (W * H ≤ b) = !decide (b < W * H) := by simp only [← Nat.not_lt, decide_not]
    simp only [la, lm, lb, decide_true, decide_false, Bool.not_true, Bool.not_false] at ka km kb
    rw [if_neg (by omega), if_neg (by omega), if_pos (by simp only [List.filter_cons, List.filter_nil, ka, km, kb]; rfl)]
    have cm := cl m (by omega) hm
    have cb := cl b (by omega) hb
    have ga := gr a la
    rw [pb a la] at *
    rw [near_iff] at h1 h2
    have : ¬ Aligned (gridPos W a) (periPos W H m) (periPos W H b) := by unfold Aligned; omega
    simp only [this, decide_false]; rfl
  · omega
  · -- m in the block, a and b peripheral
    have ka : decide (W * H ≤ a) = !decide (a < W * H) := by simp only [← Nat.not_lt, decide_not]
    have km : decide (W * H ≤ m) = !decide (m < W * H) := by simp only [← Nat.not_lt, decide_not]
    have kb : decide (W * H ≤ b) = !decide (b < W * H) := by simp only [← Nat.not_lt, decide_not]
    simp only [la, lm, lb, decide_true, decide_false, Bool.not_true, Bool.not_false] at ka km kb
    rw [if_neg (by omega), if_neg (by omega), if_pos (by simp only [List.filter_cons, List.filter_nil, ka, km, kb]; rfl)]
    have ca := cl a (by omega) ha
    have cb := cl b (by omega) hb
    have gm := gr m lm
    rw [pb m lm] at *
    have : periPos W H a ≠ periPos W H b := fun h => by have := periPos_inj hW ha hb h; omega
    have hne : (periPos W H a).1 ≠ (periPos W H b).1 ∨ (periPos W H a).2 ≠ (periPos W H b).2 := by
      by_contra hc
      push Not at hc
      exact this (Prod.ext hc.1 hc.2)
    rw [near_iff] at h1 h2
    have : ¬ Aligned (periPos W H a) (gridPos W m) (periPos W H b) := by unfold Aligned; omega
    simp only [this, decide_false]; rfl
  · omega
  · -- all peripheral
    rw [if_neg (by omega), if_pos (by omega)]
    have ca := cl a (by omega) ha
    have cm := cl m (by omega) hm
    have cb := cl b (by omega) hb
    rw [near_iff] at h1 h2
    have : Aligned (periPos W H a) (periPos W H m) (periPos W H b) := by unfold Aligned; omega
    simp only [this, decide_true]; rfl

theorem PeriConf.geom {c : Config} (hc : PeriConf c) (hW2 : 2 ≤ c.nbh * c.nblocs) (hH2 : 2 ≤ c.nbv * c.nblocs)
    (E : Env) : GeomLattice E c (periPos (c.nbh * c.nblocs) (c.nbv * c.nblocs)) where
  inj := fun i hi j hj e => by
    rw [hc.spec.1] at hi hj
    exact periPos_inj (by omega) hi hj e
  bond := hc.spec.2
  linear := by
    intro a ha m hm b hb hab h1 h2 s1 s2 s3 hp
    rcases Nat.lt_or_gt_of_ne hab with h | h
    · exact peri_linear_ordered hc hW2 hH2 E ha hm hb h h1 h2 hp
    · rw [peri_linear_ordered hc hW2 hH2 E hb hm ha h ((near_comm _ _).1 h2) ((near_comm _ _).1 h1)
        (hp.trans (by
          have : [b, m, a] = [a, m, b].reverse := rfl
          rw [this]
          exact (List.reverse_perm _).symm))]
      simp only [aligned_symm]
  tile := by
    intro a ha b hb hd
    rw [hc.spec.1] at *
    generalize c.nbh * c.nblocs = W at *
    generalize c.nbv * c.nblocs = H at *
    have hW : 1 ≤ W := by omega
    have cl := fun s (h1 : W * H ≤ s) h2 => @periPos_class W H s h1 h2
    have gr := fun s h => @gridPos_range W H s hW h
    have pb := fun s h => @periPos_block W H s h
    -- a site of the block at given coordinates
    have ex : ∀ x y : Int, 0 ≤ x → x < W → 0 ≤ y → y < H →
        ∃ m < W * H + 2 * (W + H), periPos W H m = (x, y) := by
      intro x y hx1 hx2 hy1 hy2
      obtain ⟨X, rfl⟩ := Int.eq_ofNat_of_zero_le hx1
      obtain ⟨Y, rfl⟩ := Int.eq_ofNat_of_zero_le hy1
      have hX : X < W := by omega
      have hlt : W * Y + X < W * H := by
        calc W * Y + X < W * Y + W := by omega
          _ = W * (Y + 1) := by ring
          _ ≤ W * H := Nat.mul_le_mul_left _ (by omega)
      refine ⟨W * Y + X, by omega, ?_⟩
      rw [pb _ hlt]
      obtain ⟨q1, q2⟩ := (eq_iff_divmod (i := W * Y + X) hX).1 rfl
      unfold gridPos
      rw [q1, q2]
    have fin : ∀ x y : Int, 0 ≤ x → x < W → 0 ≤ y → y < H →
        ((x = (periPos W H a).1 ∧ y = (periPos W H b).2) ∨ (x = (periPos W H b).1 ∧ y = (periPos W H a).2)) →
        ∃ m < W * H + 2 * (W + H), Near (periPos W H a) (periPos W H m) ∧ Near (periPos W H m) (periPos W H b) := by
      intro x y hx1 hx2 hy1 hy2 hxy
      obtain ⟨m, hm, e⟩ := ex x y hx1 hx2 hy1 hy2
      refine ⟨m, hm, ?_⟩
      rw [e]
      unfold Diagonal at hd
      unfold Near
      simp only
      omega
    have rng : ∀ s < W * H + 2 * (W + H),
        (0 ≤ (periPos W H s).1 ∧ (periPos W H s).1 < W ∧ 0 ≤ (periPos W H s).2 ∧ (periPos W H s).2 < H) ∨
        (((periPos W H s).2 = -1 ∨ (periPos W H s).2 = H) ∧ 0 ≤ (periPos W H s).1 ∧ (periPos W H s).1 < W) ∨
        (((periPos W H s).1 = -1 ∨ (periPos W H s).1 = W) ∧ 0 ≤ (periPos W H s).2 ∧ (periPos W H s).2 < H) := by
      intro s hs
      by_cases l : s < W * H
      · left; rw [pb s l]; exact gr s l
      · right
        rcases cl s (by omega) hs with ⟨_, h⟩ | ⟨_, h⟩
        · exact Or.inl h
        · exact Or.inr h
    have ra := rng a ha
    have rb := rng b hb
    have hd' := hd
    unfold Diagonal at hd'
    by_cases k : 0 ≤ (periPos W H a).1 ∧ (periPos W H a).1 < W ∧ 0 ≤ (periPos W H b).2 ∧ (periPos W H b).2 < H
    · exact fin _ _ k.1 k.2.1 k.2.2.1 k.2.2.2 (Or.inl ⟨rfl, rfl⟩)
    · refine fin (periPos W H b).1 (periPos W H a).2 ?_ ?_ ?_ ?_ (Or.inr ⟨rfl, rfl⟩) <;> omega

end TJ
