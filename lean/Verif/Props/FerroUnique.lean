/-
Property C111: the ground states of the ferromagnet with holes.
-/
import Verif.Props.LiebMattis
import Verif.Props.Dependance

namespace TJ

open Finset Matrix

/-! ### Signs of the matrix elements -/

section
variable {n : Nat} (I : Interactions ℝ) (pos : Fin n → Pt) (B : BoolInteractions)

theorem ferroSign_eq (t : ℝ) (σ : Conf n) : ferroSign t pos σ = if 0 < t then holeSign pos σ else 1 := by
  unfold ferroSign holeSign
  split_ifs
  · refine prod_congr rfl fun s _ => ?_
    unfold colourSign
    split_ifs <;> simp_all
  · rfl

theorem ferroSign_sq (t : ℝ) (σ : Conf n) : ferroSign t pos σ * ferroSign t pos σ = 1 := by
  rw [ferroSign_eq]
  split_ifs
  · exact holeSign_sq pos σ
  · exact one_mul 1

theorem ferroSign_congr (t : ℝ) {σ τ : Conf n} (h : SameHoles σ τ) : ferroSign t pos σ = ferroSign t pos τ := by
  rw [ferroSign_eq, ferroSign_eq, holeSign_congr pos h]

/-- The couplings with a `t` that is not positive. -/
noncomputable def lowT : Interactions ℝ := if 0 < I.t then oppositeT I else I

theorem ferro_ham (σ τ : Conf n) : ferroSign I.t pos σ * ferroSign I.t pos τ * hamEl I pos B σ τ = hamEl (lowT I) pos B σ τ := by
  rw [ferroSign_eq, ferroSign_eq]
  unfold lowT
  split_ifs
  · rw [hamEl_oppositeT]
  · ring

theorem lowT_same : (lowT I).J = I.J ∧ (lowT I).Jhpar = I.Jhpar ∧ (lowT I).Jhper = I.Jhper ∧ (lowT I).hSDpar = I.hSDpar ∧
    (lowT I).hSDper = I.hSDper ∧ (lowT I).tNNN = I.tNNN ∧ (lowT I).tnNNN = I.tnNNN := by
  unfold lowT oppositeT
  split_ifs <;> simp

theorem lowT_t (h : I.t ≠ 0) : (lowT I).t < 0 := by
  unfold lowT oppositeT
  split_ifs with h1
  · show - I.t < 0
    linarith
  · exact lt_of_le_of_ne (not_lt.1 h1) h

theorem lowT_t_le : (lowT I).t ≤ 0 := by
  unfold lowT oppositeT
  split_ifs with h1
  · show - I.t ≤ 0
    linarith
  · exact not_lt.1 h1

variable {I pos B}

theorem sum2_nonpos {f : Fin n → Fin n → ℝ} (h : ∀ a b, f a b ≤ 0) : (∑ a, ∑ b, f a b) ≤ 0 :=
  sum_nonpos fun a _ => sum_nonpos fun b _ => h a b

theorem sum2_neg {f : Fin n → Fin n → ℝ} (h : ∀ a b, f a b ≤ 0) (a b : Fin n) (hab : f a b < 0) : (∑ a, ∑ b, f a b) < 0 :=
  sum_neg' (fun a _ => sum_nonpos fun b _ => h a b) ⟨a, mem_univ _, sum_neg' (fun b _ => h a b) ⟨b, mem_univ _, hab⟩⟩

theorem sdEl_zero (h : I.hSDpar = 0 ∧ I.hSDper = 0) (σ τ : Conf n) : sdEl I pos σ τ = 0 := by
  unfold sdEl
  rw [h.1, h.2]
  simp

theorem hop_nonpos (ht : I.t ≤ 0) (σ τ : Conf n) : hopEl I pos σ τ ≤ 0 := by
  refine sum2_nonpos fun a b => ?_
  split_ifs
  · exact ht
  · exact le_refl _

theorem next_nonpos (hN : I.tNNN ≤ 0 ∧ I.tnNNN ≤ 0) (σ τ : Conf n) : nextEl I pos σ τ ≤ 0 := by
  refine sum2_nonpos fun a b => ?_
  split_ifs
  · exact hN.2
  · exact hN.1
  · exact le_refl _

theorem Jeff_neg (hJ : I.J < 0 ∧ I.Jhpar < 0 ∧ I.Jhper < 0) (σ : Conf n) (a b : Fin n) : Jeff I pos σ a b < 0 := by
  unfold Jeff
  split_ifs
  · exact hJ.2.1
  · exact hJ.2.2
  · exact hJ.1

theorem flip_le (hJ : I.J < 0 ∧ I.Jhpar < 0 ∧ I.Jhper < 0) (σ τ : Conf n) (a b : Fin n) :
    (if a < b ∧ Near (pos a) (pos b) ∧ σ a ≠ .hole ∧ σ b ≠ .hole ∧ σ a ≠ σ b ∧ τ = exch σ a b then Jeff I pos σ a b / 2 else 0) ≤ 0 := by
  split_ifs
  · have := Jeff_neg (pos := pos) hJ σ a b
    linarith
  · exact le_refl _

/-- Off-diagonal elements are not positive, those of an exchange of neighbours are negative. -/
theorem low_ham (hij : B.bij = true) (hJ : I.J < 0 ∧ I.Jhpar < 0 ∧ I.Jhper < 0)
    (hS : B.bSD = true → I.hSDpar = 0 ∧ I.hSDper = 0) (hN : B.btN = true → I.tNNN ≤ 0 ∧ I.tnNNN ≤ 0) (ht : I.t ≤ 0)
    {σ τ : Conf n} (hne : τ ≠ σ) : hamEl I pos B σ τ ≤ 0 ∧
      (ExchStep pos σ τ → ((∀ s, σ s ≠ .hole) ∨ (B.bt = true ∧ I.t < 0)) → hamEl I pos B σ τ < 0) := by
  have e1 : (if B.bt then hopEl I pos σ τ else 0) ≤ 0 := by
    split_ifs
    · exact hop_nonpos ht σ τ
    · exact le_refl _
  have e2 : (if B.bz then staticEl I pos σ τ else 0) = 0 := by
    unfold staticEl
    rw [if_neg hne, ite_self]
  have e3 : (if B.bij then flipEl I pos σ τ else 0) ≤ 0 := by
    rw [if_pos hij]
    exact sum2_nonpos (flip_le hJ σ τ)
  have e4 : (if B.bSD then sdEl I pos σ τ else 0) = 0 := by
    split_ifs with h
    · exact sdEl_zero (hS h) σ τ
    · rfl
  have e5 : (if B.btN then nextEl I pos σ τ else 0) ≤ 0 := by
    split_ifs with h
    · exact next_nonpos (hN h) σ τ
    · exact le_refl _
  have e6 : (if B.bV then repEl I pos σ τ else 0) = 0 := by
    unfold repEl
    rw [if_neg hne, ite_self]
  refine ⟨by unfold hamEl; rw [e2, e4, e6]; linarith, ?_⟩
  rintro ⟨a, b, h1, h2, rfl⟩ hh
  have strict : (if B.bt then hopEl I pos σ (exch σ a b) else 0) < 0 ∨ (if B.bij then flipEl I pos σ (exch σ a b) else 0) < 0 := by
    have hop : ∀ a' b', σ a' = .hole → σ b' ≠ .hole → Near (pos a') (pos b') → exch σ a b = exch σ a' b' →
        (if B.bt then hopEl I pos σ (exch σ a b) else 0) < 0 := by
      intro a' b' g1 g2 g3 g4
      rcases hh with hh | ⟨hb, ht'⟩
      · exact absurd g1 (hh a')
      rw [if_pos hb]
      refine sum2_neg (fun x y => ?_) a' b' ?_
      · split_ifs
        · exact ht
        · exact le_refl _
      · rw [if_pos ⟨g1, g2, g3, g4⟩]
        exact ht'
    by_cases ha : σ a = .hole
    · exact .inl (hop a b ha (fun h => h2 (ha.trans h.symm)) h1 rfl)
    by_cases hb : σ b = .hole
    · exact .inl (hop b a hb ha ((near_comm _ _).1 h1) (exch_comm _ _ _))
    right
    rw [if_pos hij]
    have key : ∀ x y : Fin n, x < y → Near (pos x) (pos y) → σ x ≠ .hole → σ y ≠ .hole → σ x ≠ σ y → exch σ a b = exch σ x y →
        flipEl I pos σ (exch σ a b) < 0 := by
      intro x y q1 q2 q3 q4 q5 q6
      refine sum2_neg (flip_le hJ σ _) x y ?_
      rw [if_pos ⟨q1, q2, q3, q4, q5, q6⟩]
      have := Jeff_neg (pos := pos) hJ σ x y
      linarith
    rcases lt_trichotomy a b with q | q | q
    · exact key a b q h1 ha hb h2 rfl
    · exact absurd (congrArg σ q) h2
    · exact key b a q ((near_comm _ _).1 h1) hb ha (Ne.symm h2) (exch_comm _ _ _)
  unfold hamEl
  rw [e2, e4, e6]
  rcases strict with h | h <;> linarith

end

section
variable {E : Env} {c : Config} {nbh nbv nb : Nat} {I : Interactions ℝ} {B : BoolInteractions} {r : List Nat} {vb' : Bool}
  {dets : List (List Nat)} {H : SpMat ℝ}

/-- A sign rule of the matrix elements between occupations is one of the matrix, and steps that reach all occupations connect all determinants. -/
theorem signs_steps (hc : RectConf c nbh nbv nb) (hf : c.Full) (hn : c.nholes + c.nbeta ≤ c.nsites)
    (hb : constructBasis c = .ok dets) (hH : buildHamiltonian E c I dets B r vb' = .ok H)
    (R : Conf c.nsites → Conf c.nsites → Prop) (hR : ∀ σ τ, R σ τ → ∃ a b, σ a ≠ σ b ∧ τ = exch σ a b)
    (hall : ∀ σ τ, σ.count .hole = c.nholes → σ.count .down = c.nbeta → (∀ o, σ.count o = τ.count o) → Relation.ReflTransGen R σ τ)
    (sg : Conf c.nsites → ℝ) (hsq : ∀ σ, sg σ * sg σ = 1)
    (h1 : ∀ σ τ, σ.count .hole = c.nholes → τ ≠ σ → sg σ * sg τ * hamEl I (fun t : Fin c.nsites => gridPos (nbh * nb) t) B σ τ ≤ 0)
    (h2 : ∀ σ τ, σ.count .hole = c.nholes → τ ≠ σ → R σ τ →
      sg σ * sg τ * hamEl I (fun t : Fin c.nsites => gridPos (nbh * nb) t) B σ τ < 0) :
    ∃ hd : H.dim = dets.length, ∀ s : Fin H.dim → ℝ, (∀ i, s i = sg (conf c (dets[i.1]'(hd ▸ i.2)))) →
      H.toMatrix.IsSymm ∧ (∀ i, s i * s i = 1) ∧ (∀ i j, i ≠ j → s i * s j * H.toMatrix i j ≤ 0) ∧
        ∀ i j, Relation.ReflTransGen (fun i j => i ≠ j ∧ s i * s j * H.toMatrix i j < 0) i j := by
  obtain ⟨H', h1', hd, _, _⟩ := buildHamiltonian_spec I (hc.tj E) hf hn hb B r vb'
  obtain rfl := Except.ok.inj (hH.symm.trans h1')
  have he := C31_matrix_elements E c nbh nbv nb hc hf hn I B r vb' dets hb H hH
  set pos := (fun t : Fin c.nsites => gridPos (nbh * nb) t) with hpos
  have cnt : ∀ i (hi : i < dets.length), (conf c dets[i]).count .hole = c.nholes ∧ (conf c dets[i]).count .down = c.nbeta := fun i hi =>
    ⟨count_conf_hole hn (canonical_getElem hb i hi).1, count_conf_down hn (canonical_getElem hb i hi).1⟩
  refine ⟨hd, fun s hs => ⟨?_, ?_, ?_, ?_⟩⟩
  · ext i j
    exact C32_symmetric E c nbh nbv nb hc hf hn I B r vb' dets hb H hH j i
  · intro i
    rw [hs]
    exact hsq _
  · intro i j hij'
    have hi : i.1 < dets.length := hd ▸ i.2
    have hj : j.1 < dets.length := hd ▸ j.2
    rw [hs, hs]
    show _ * _ * H.entry i.1 j.1 ≤ 0
    rw [he i.1 j.1 hi hj]
    refine h1 _ _ (cnt i.1 hi).1 ?_
    intro e
    exact hij' (Fin.ext (conf_inj hb hj hi e)).symm
  · intro i j
    have hi : i.1 < dets.length := hd ▸ i.2
    have hj : j.1 < dets.length := hd ▸ j.2
    have hsame : ∀ o, (conf c dets[i.1]).count o = (conf c dets[j.1]).count o := by
      intro o
      have q1 := cnt i.1 hi
      have q2 := cnt j.1 hj
      have q3 := count_sum (conf c dets[i.1])
      have q4 := count_sum (conf c dets[j.1])
      cases o <;> omega
    have hreach := hall _ _ (cnt i.1 hi).1 (cnt i.1 hi).2 hsame
    have key : ∀ τ, Relation.ReflTransGen R (conf c dets[i.1]) τ → ∃ k : Fin H.dim, conf c (dets[k.1]'(hd ▸ k.2)) = τ ∧
        Relation.ReflTransGen (fun i j => i ≠ j ∧ s i * s j * H.toMatrix i j < 0) i k := by
      intro τ hτ
      induction hτ with
      | refl => exact ⟨i, rfl, Relation.ReflTransGen.refl⟩
      | @tail τ τ' _ hstep ih =>
        obtain ⟨k, hk, hr⟩ := ih
        have hk' : k.1 < dets.length := hd ▸ k.2
        have c1 := cnt k.1 hk'
        rw [hk] at c1
        have m1 : τ' ≠ τ := by
          obtain ⟨a, b, hab, rfl⟩ := hR _ _ hstep
          intro e
          have := congrFun e a
          rw [exch_left] at this
          exact hab this.symm
        have hcnt : τ'.count .hole = c.nholes ∧ τ'.count .down = c.nbeta := by
          obtain ⟨a, b, _, rfl⟩ := hR _ _ hstep
          rw [exch_comp, count_comp, count_comp]
          exact c1
        obtain ⟨l, hl, e⟩ := exists_conf hb hn hcnt.1 hcnt.2
        have m2 := h2 τ τ' c1.1 m1 hstep
        refine ⟨⟨l, hd ▸ hl⟩, e, hr.tail ⟨?_, ?_⟩⟩
        · rintro rfl
          exact m1 (e.symm.trans hk)
        · rw [hs, hs]
          show _ * _ * H.entry k.1 l < 0
          rw [he k.1 l hk' hl]
          simp only [hk, e]
          exact m2
    obtain ⟨k, hk, hr⟩ := key _ hreach
    have : k = j := Fin.ext (conf_inj hb (hd ▸ k.2) hj hk)
    rwa [this] at hr

/-- A sign rule of the matrix elements between occupations is one of the matrix, and exchanges of neighbours connect all determinants. -/
theorem signs_general (hc : RectConf c nbh nbv nb) (hf : c.Full) (hn : c.nholes + c.nbeta ≤ c.nsites)
    (hb : constructBasis c = .ok dets) (hH : buildHamiltonian E c I dets B r vb' = .ok H)
    (sg : Conf c.nsites → ℝ) (hsq : ∀ σ, sg σ * sg σ = 1)
    (h1 : ∀ σ τ, σ.count .hole = c.nholes → τ ≠ σ → sg σ * sg τ * hamEl I (fun t : Fin c.nsites => gridPos (nbh * nb) t) B σ τ ≤ 0)
    (h2 : ∀ σ τ, σ.count .hole = c.nholes → τ ≠ σ → ExchStep (fun t : Fin c.nsites => gridPos (nbh * nb) t) σ τ →
      sg σ * sg τ * hamEl I (fun t : Fin c.nsites => gridPos (nbh * nb) t) B σ τ < 0) :
    ∃ hd : H.dim = dets.length, ∀ s : Fin H.dim → ℝ, (∀ i, s i = sg (conf c (dets[i.1]'(hd ▸ i.2)))) →
      H.toMatrix.IsSymm ∧ (∀ i, s i * s i = 1) ∧ (∀ i j, i ≠ j → s i * s j * H.toMatrix i j ≤ 0) ∧
        ∀ i j, Relation.ReflTransGen (fun i j => i ≠ j ∧ s i * s j * H.toMatrix i j < 0) i j :=
  signs_steps hc hf hn hb hH (ExchStep fun t : Fin c.nsites => gridPos (nbh * nb) t) (fun _ _ ⟨a, b, _, h, e⟩ => ⟨a, b, h, e⟩)
    (fun σ τ _ _ h => steps_all (fun a b => grid_joined (nbh * nb) (nbv * nb) hc.spec.1 a b) σ τ h) sg hsq h1 h2

/-- The sign rule of the ferromagnet. -/
theorem ferro_signs (hc : RectConf c nbh nbv nb) (hf : c.Full) (hn : c.nholes + c.nbeta ≤ c.nsites)
    (hij : B.bij = true) (hJ : I.J < 0 ∧ I.Jhpar < 0 ∧ I.Jhper < 0)
    (hS : B.bSD = true → I.hSDpar = 0 ∧ I.hSDper = 0) (hN : B.btN = true → I.tNNN ≤ 0 ∧ I.tnNNN ≤ 0)
    (ht : c.nholes = 0 ∨ (B.bt = true ∧ I.t ≠ 0))
    (hb : constructBasis c = .ok dets) (hH : buildHamiltonian E c I dets B r vb' = .ok H) :
    ∃ hd : H.dim = dets.length, ∀ s : Fin H.dim → ℝ,
      (∀ i, s i = ferroSign I.t (fun t : Fin c.nsites => gridPos (nbh * nb) t) (conf c (dets[i.1]'(hd ▸ i.2)))) →
      H.toMatrix.IsSymm ∧ (∀ i, s i * s i = 1) ∧ (∀ i j, i ≠ j → s i * s j * H.toMatrix i j ≤ 0) ∧
        ∀ i j, Relation.ReflTransGen (fun i j => i ≠ j ∧ s i * s j * H.toMatrix i j < 0) i j := by
  obtain ⟨l1, l2, l3, l4, l5, l6, l7⟩ := lowT_same I
  have low := fun (σ τ : Conf c.nsites) (hne : τ ≠ σ) => low_ham (I := lowT I) (pos := fun t : Fin c.nsites => gridPos (nbh * nb) t) (B := B) hij
    (by rw [l1, l2, l3]; exact hJ) (by rw [l4, l5]; exact hS) (by rw [l6, l7]; exact hN) (lowT_t_le I) hne
  refine signs_general hc hf hn hb hH _ (ferroSign_sq _ _) ?_ ?_
  · intro σ τ _ hne
    rw [ferro_ham]
    exact (low σ τ hne).1
  · intro σ τ hσ hne hstep
    rw [ferro_ham]
    refine (low σ τ hne).2 hstep ?_
    rcases ht with h | ⟨h, h'⟩
    · left
      intro s hs
      rw [h] at hσ
      unfold Conf.count at hσ
      rw [card_eq_zero, filter_eq_empty_iff] at hσ
      exact hσ (mem_univ s) hs
    · exact .inr ⟨h, lowT_t I h'⟩

/-- The basis of a sector is not empty. -/
theorem dets_pos (hn : c.nholes + c.nbeta ≤ c.nsites) (hb : constructBasis c = .ok dets) : 0 < dets.length := by
  have hm : ∀ (m : Nat), m ≤ c.nsites → (univ.filter fun s : Fin c.nsites => s.1 < m).card = m := by
    intro m h
    rw [Fin.card_filter_val_lt]
    omega
  let σ : Conf c.nsites := fun s => if s.1 < c.nholes then .hole else if s.1 < c.nholes + c.nbeta then .down else .up
  have c1 : σ.count .hole = c.nholes := by
    unfold Conf.count
    rw [← hm c.nholes (by omega)]
    congr 1
    ext s
    simp only [mem_filter, mem_univ, true_and, σ]
    split_ifs <;> simp_all
  have c2 : σ.count .hole + σ.count .down = c.nholes + c.nbeta := by
    rw [← hm (c.nholes + c.nbeta) hn]
    unfold Conf.count
    rw [← card_union_of_disjoint]
    · congr 1
      ext s
      simp only [mem_filter, mem_univ, true_and, mem_union, σ]
      split_ifs <;> first | (simp; omega) | simp_all
    · rw [disjoint_filter]
      intro s _ h h'
      rw [h] at h'
      exact absurd h' (by decide)
  obtain ⟨k, hk, _⟩ := exists_conf hb hn c1 (show σ.count .down = c.nbeta by omega)
  omega

end

/-! ### C111 -/

/-- C111. With ferromagnetic couplings the coefficients of a lowest state of a sector are not zero: for negative `t` they all have the same sign,
for positive `t` the signs count the holes on black fields, up to a common sign. -/
theorem C111_signs (E : Env) (c : Config) (nbh nbv nb : Nat) (hc : RectConf c nbh nbv nb) (hf : c.Full) (hn : c.nholes + c.nbeta ≤ c.nsites)
    (I : Interactions ℝ) (B : BoolInteractions) (hij : B.bij = true) (hJ : I.J < 0 ∧ I.Jhpar < 0 ∧ I.Jhper < 0)
    (hS : B.bSD = true → I.hSDpar = 0 ∧ I.hSDper = 0) (hN : B.btN = true → I.tNNN ≤ 0 ∧ I.tnNNN ≤ 0)
    (ht : c.nholes = 0 ∨ (B.bt = true ∧ I.t ≠ 0)) (r : List Nat) (v : Bool)
    (dets : List (List Nat)) (hb : constructBasis c = .ok dets) (H : SpMat ℝ) (hH : buildHamiltonian E c I dets B r v = .ok H)
    (e : ℝ) (he : IsLeast {μ | Module.End.HasEigenvalue (Matrix.toLin' H.toMatrix) μ} e)
    (x : Fin H.dim → ℝ) (hx : H.toMatrix *ᵥ x = e • x) (hne : x ≠ 0) (i j : Fin H.dim) (hi : i.1 < dets.length) (hj : j.1 < dets.length) :
    0 < ferroSign I.t (fun t : Fin c.nsites => gridPos (nbh * nb) t) (conf c dets[i.1]) * x i *
      (ferroSign I.t (fun t : Fin c.nsites => gridPos (nbh * nb) t) (conf c dets[j.1]) * x j) := by
  obtain ⟨hd, h⟩ := ferro_signs hc hf hn hij hJ hS hN ht hb hH
  obtain ⟨p1, p2, p3, p4⟩ := h _ (fun i => rfl)
  exact perron p1 _ p2 p3 p4 (least_min p1 he) x hx hne i j

/-- The signs of the matrix of a sector: after the change of signs no off-diagonal element is positive, and negative elements connect all
determinants. -/
def SignRule (c : Config) (W : Nat) (t : ℝ) (dets : List (List Nat)) (H : SpMat ℝ) : Prop :=
  ∃ hd : H.dim = dets.length, ∀ s : Fin H.dim → ℝ, (∀ i, s i = ferroSign t (fun t : Fin c.nsites => gridPos W t) (conf c (dets[i.1]'(hd ▸ i.2)))) →
    H.toMatrix.IsSymm ∧ (∀ i, s i * s i = 1) ∧ (∀ i j, i ≠ j → s i * s j * H.toMatrix i j ≤ 0) ∧
      ∀ i j, Relation.ReflTransGen (fun i j => i ≠ j ∧ s i * s j * H.toMatrix i j < 0) i j

/-- With the sign rule the lowest state is unique. -/
theorem unique_of_signs {c : Config} {W : Nat} {t : ℝ} {dets : List (List Nat)} {H : SpMat ℝ} (hn : c.nholes + c.nbeta ≤ c.nsites)
    (hb : constructBasis c = .ok dets) (hs : SignRule c W t dets H) : ∃ e, IsLeast {μ | Module.End.HasEigenvalue (Matrix.toLin' H.toMatrix) μ} e ∧
      Module.finrank ℝ (Module.End.eigenspace (Matrix.toLin' H.toMatrix) e) = 1 := by
  obtain ⟨hd, h⟩ := hs
  obtain ⟨p1, p2, p3, p4⟩ := h _ (fun i => rfl)
  obtain ⟨e, he⟩ := exists_least p1 (by rw [hd]; exact dets_pos hn hb)
  refine ⟨e, he, ?_⟩
  obtain ⟨x, hx, hne⟩ := he.1.exists_hasEigenvector
  refine finrank_eq_one_iff'.2 ⟨⟨x, hx⟩, fun h => hne (congrArg Subtype.val h), ?_⟩
  rintro ⟨y, hy⟩
  rw [Module.End.mem_eigenspace_iff, Matrix.toLin'_apply] at hx hy
  obtain ⟨a, ha⟩ := perron_unique p1 _ p2 p3 p4 (least_min p1 he) x y hx hy hne
  exact ⟨a, Subtype.ext ha.symm⟩

/-- C111. With ferromagnetic couplings the lowest state of every sector is unique. -/
theorem C111_unique (E : Env) (c : Config) (nbh nbv nb : Nat) (hc : RectConf c nbh nbv nb) (hf : c.Full) (hn : c.nholes + c.nbeta ≤ c.nsites)
    (I : Interactions ℝ) (B : BoolInteractions) (hij : B.bij = true) (hJ : I.J < 0 ∧ I.Jhpar < 0 ∧ I.Jhper < 0)
    (hS : B.bSD = true → I.hSDpar = 0 ∧ I.hSDper = 0) (hN : B.btN = true → I.tNNN ≤ 0 ∧ I.tnNNN ≤ 0)
    (ht : c.nholes = 0 ∨ (B.bt = true ∧ I.t ≠ 0)) (r : List Nat) (v : Bool)
    (dets : List (List Nat)) (hb : constructBasis c = .ok dets) (H : SpMat ℝ) (hH : buildHamiltonian E c I dets B r v = .ok H) :
    ∃ e, IsLeast {μ | Module.End.HasEigenvalue (Matrix.toLin' H.toMatrix) μ} e ∧
      Module.finrank ℝ (Module.End.eigenspace (Matrix.toLin' H.toMatrix) e) = 1 :=
  unique_of_signs hn hb (ferro_signs hc hf hn hij hJ hS hN ht hb hH)

/-! ### The total spin -/

section
variable {n : Nat}

/-- The total spin is an exchange kernel. -/
theorem spin2_kernel : ∃ M : Conf n → Conf n → ℝ, ExchKernel M ∧ ∀ (φ : Conf n → ℝ) σ, (∑ τ, M σ τ * φ τ) = spin2 φ σ := by
  let M : Conf n → Conf n → ℝ := fun σ τ => (if τ = σ then 3 / 4 * (σ.electrons : ℝ) else 0) +
    ∑ a, ∑ b, if a < b ∧ σ a ≠ .hole ∧ σ b ≠ .hole then (if τ = exch σ a b then 1 else 0) - (if τ = σ then 1 / 2 else 0) else 0
  have hM : ∀ (φ : Conf n → ℝ) σ, (∑ τ, M σ τ * φ τ) = spin2 φ σ := by
    intro φ σ
    simp only [M, add_mul, sum_add_distrib, sum_mul]
    unfold spin2
    congr 1
    · simp
    · rw [sum_comm]
      refine sum_congr rfl fun a _ => ?_
      rw [sum_comm]
      refine sum_congr rfl fun b _ => ?_
      split_ifs
      · simp only [sub_mul, sum_sub_distrib]
        simp
        ring
      · simp
  refine ⟨M, ⟨(Fin n × Fin n) ⊕ Unit, inferInstance,
    Sum.elim (fun x σ => if x.1 < x.2 ∧ σ x.1 ≠ .hole ∧ σ x.2 ≠ .hole then 1 else 0)
      (fun _ σ => 3 / 4 * (σ.electrons : ℝ) + ∑ a, ∑ b, if a < b ∧ σ a ≠ .hole ∧ σ b ≠ .hole then - (1 / 2) else 0),
    Sum.elim (fun x => Equiv.swap x.1 x.2) (fun _ => Equiv.refl _), ?_, ?_⟩, hM⟩
  · rintro (x | x) σ τ h
    · simp only [Sum.elim_inl, h x.1, h x.2, ne_eq]
    · have he : σ.electrons = τ.electrons := by
        have h1 := count_sum σ
        have h2 := count_sum τ
        have h3 : σ.count .hole = τ.count .hole := by
          unfold Conf.count
          congr 1
          ext s
          simp only [mem_filter, mem_univ, true_and]
          exact h s
        unfold Conf.electrons
        omega
      simp only [Sum.elim_inr, h _, ne_eq, he]
  · intro φ σ
    rw [hM, Fintype.sum_sum_type, Fintype.sum_prod_type]
    unfold spin2
    simp only [Sum.elim_inl, Sum.elim_inr, univ_unique, sum_singleton, add_mul, sum_mul]
    rw [add_left_comm]
    congr 1
    rw [← sum_add_distrib]
    refine sum_congr rfl fun a _ => ?_
    rw [← sum_add_distrib]
    refine sum_congr rfl fun b _ => ?_
    have : φ (fun s => σ (Equiv.swap a b s)) = φ (exch σ a b) := rfl
    rw [this]
    show _ = _ + _ * φ σ
    split_ifs <;> ring

theorem spin2_lower (φ : Conf n → ℝ) (σ : Conf n) : spin2 (lower φ) σ = lower (spin2 φ) σ := by
  obtain ⟨M, h1, h2⟩ := spin2_kernel (n := n)
  rw [← h2, lower_comm h1, show (fun σ => ∑ τ, M σ τ * φ τ) = spin2 φ from funext fun τ => h2 φ τ]

/-- In every sector there is a state of that energy with the spin and the signs of a polarised one. -/
theorem lower_signs {I : Interactions ℝ} {pos : Fin n → Pt} {B : BoolInteractions} (hB : B.bz = B.bij) {h : Nat} {e q t : ℝ} {φ : Conf n → ℝ}
    (h0 : φ ∈ sectorEig I pos B h 0 e) (hq : ∀ σ, spin2 φ σ = q * φ σ)
    (hs : ∀ σ : Conf n, σ.count .hole = h → σ.count .down = 0 → 0 < ferroSign t pos σ * φ σ) (b : Nat) :
    ∃ χ ∈ sectorEig I pos B h b e, (∀ σ, spin2 χ σ = q * χ σ) ∧
      ∀ σ : Conf n, σ.count .hole = h → σ.count .down = b → 0 < ferroSign t pos σ * χ σ := by
  have hM : ExchKernel (hamEl I pos B) := ham_kernel two_ne_zero I _ B hB
  induction b with
  | zero => exact ⟨φ, h0, hq, hs⟩
  | succ b ih =>
    obtain ⟨χ, h1, h2, h3⟩ := ih
    refine ⟨lower χ, ⟨lower_sector h1.1, fun σ => ?_⟩, fun σ => ?_, fun τ c1 c2 => ?_⟩
    · unfold tjOp
      rw [lower_comm hM]
      have : (fun σ => ∑ τ, hamEl I pos B σ τ * χ τ) = e • χ := funext fun σ => h1.2 σ
      rw [this, LinearMap.map_smul]
      rfl
    · rw [spin2_lower]
      have : spin2 χ = q • χ := funext fun σ => h2 σ
      rw [this, LinearMap.map_smul]
      rfl
    · show 0 < ferroSign t pos τ * ∑ a, if τ a = .down then χ (Function.update τ a .up) else 0
      have hpos : ∀ a, τ a = .down → 0 < ferroSign t pos τ * χ (Function.update τ a .up) := by
        intro a ha
        rw [ferroSign_congr pos t (sameHoles_update τ a ha)]
        obtain ⟨u1, u2⟩ := count_update τ a ha
        exact h3 _ (by omega) (by omega)
      have hex : ∃ a, τ a = .down := by
        by_contra hcon
        push Not at hcon
        have : τ.count .down = 0 := by
          unfold Conf.count
          rw [card_eq_zero, filter_eq_empty_iff]
          exact fun s _ => hcon s
        omega
      obtain ⟨a, ha⟩ := hex
      rw [mul_sum]
      refine sum_pos' (fun a _ => ?_) ⟨a, mem_univ _, ?_⟩
      · split_ifs with g
        · exact (hpos a g).le
        · rw [mul_zero]
      · rw [if_pos ha]
        exact hpos a ha

end

/-- With the sign rule the lowest state of the sector has the largest total spin, half of the number of electrons. -/
theorem total_spin_of_signs (E : Env) (c : Config) (nbh nbv nb : Nat) (hc : RectConf c nbh nbv nb) (hf : c.Full) (hn : c.nholes + c.nbeta ≤ c.nsites)
    (I : Interactions ℝ) (B : BoolInteractions) (hB : B.bz = B.bij) (hJ : B.bz = true → I.J ≤ 0 ∧ I.Jhpar ≤ 0 ∧ I.Jhper ≤ 0)
    (hS : B.bSD = true → I.hSDpar = 0 ∧ I.hSDper = 0) (hN : B.btN = true → I.tNNN ≤ 0 ∧ I.tnNNN ≤ 0)
    (dets : List (List Nat)) (hb : constructBasis c = .ok dets) (H : SpMat ℝ) (hH : buildHamiltonian E c I dets B = .ok H)
    (hs : SignRule c (nbh * nb) I.t dets H)
    (hs0 : ∀ d G, constructBasis { c with nbeta := 0 } = .ok d → buildHamiltonian E { c with nbeta := 0 } I d B = .ok G →
      SignRule { c with nbeta := 0 } (nbh * nb) I.t d G)
    (e : ℝ) (he : IsLeast {μ | Module.End.HasEigenvalue (Matrix.toLin' H.toMatrix) μ} e)
    (x : Fin H.dim → ℝ) (hx : H.toMatrix *ᵥ x = e • x) (σ : Conf c.nsites) :
    spin2 (state c dets x) σ =
      (((c.nsites - c.nholes : Nat) : ℝ) / 2 * (((c.nsites - c.nholes : Nat) : ℝ) / 2 + 1)) * state c dets x σ := by
  have hn0 : c.nholes + 0 ≤ c.nsites := by omega
  set pos := (fun t : Fin c.nsites => gridPos (nbh * nb) t) with hpos
  -- the polarised state of lowest energy
  obtain ⟨d, G, a1, a2, _⟩ := C30_no_failure E { c with nbeta := 0 } nbh nbv nb (hc.with_nbeta 0) hf hn0 I B [] false
  have he0 : IsLeast {μ | Module.End.HasEigenvalue (Matrix.toLin' G.toMatrix) μ} e :=
    (lowest_polarised hc hf hn hB hJ hS hN hb a1 hH a2 e).1 he
  obtain ⟨hd, h⟩ := hs0 d G a1 a2
  obtain ⟨p1, p2, p3, p4⟩ := h _ (fun i => rfl)
  obtain ⟨y, hy, hy0⟩ := he0.1.exists_hasEigenvector
  rw [Module.End.mem_eigenspace_iff, Matrix.toLin'_apply] at hy
  have hpp := perron p1 _ p2 p3 p4 (least_min p1 he0) y hy hy0
  have hmem := ground_mem (E := E) (c := { c with nbeta := 0 }) (hc.with_nbeta 0) hf hn0 a1 a2 hy
  have hk : 0 < d.length := dets_pos (c := { c with nbeta := 0 }) hn0 a1
  set φ : Conf c.nsites → ℝ := state { c with nbeta := 0 } d y with hφ
  set w := ferroSign I.t pos (conf { c with nbeta := 0 } d[0]) * y ⟨0, hd ▸ hk⟩ with hw
  obtain ⟨χ, x1, x2, x3⟩ := lower_signs (I := I) (pos := pos) (B := B) hB (h := c.nholes) (e := e) (t := I.t) (φ := w • φ)
    (q := ((c.nsites - c.nholes : Nat) : ℝ) / 2 * (((c.nsites - c.nholes : Nat) : ℝ) / 2 + 1))
    (Submodule.smul_mem _ w hmem) (fun σ => spin2_polarised (Submodule.smul_mem _ w hmem).1 σ)
    (by
      intro σ s1 s2
      obtain ⟨k, hk', rfl⟩ := exists_conf (c := { c with nbeta := 0 }) a1 hn0 s1 s2
      have : 0 < w * (ferroSign I.t pos (conf { c with nbeta := 0 } d[k]) * y ⟨k, hd ▸ hk'⟩) := hpp ⟨0, hd ▸ hk⟩ ⟨k, hd ▸ hk'⟩
      have hv : φ (conf { c with nbeta := 0 } d[k]) = y ⟨k, hd ▸ hk'⟩ := state_conf a1 y hd hk'
      show 0 < ferroSign I.t pos (conf { c with nbeta := 0 } d[k]) * (w * φ (conf { c with nbeta := 0 } d[k]))
      rw [hv, mul_left_comm]
      exact this) c.nbeta
  -- the lowest state is a multiple of it
  obtain ⟨k, hk', -⟩ : ∃ k, ∃ _ : k < dets.length, True := ⟨0, dets_pos hn hb, trivial⟩
  have hχ0 : χ ≠ 0 := by
    intro h0
    have := x3 (conf c dets[k]) (count_conf_hole hn (canonical_getElem hb k hk').1) (count_conf_down hn (canonical_getElem hb k hk').1)
    rw [h0] at this
    simp at this
  obtain ⟨e', he', hone⟩ := unique_of_signs hn hb hs
  obtain rfl := he.unique he'
  rw [eigenspace_map hc hf hn hb hH] at hone
  have hmx := ground_mem (E := E) hc hf hn hb hH hx
  obtain ⟨a, ha⟩ := (finrank_eq_one_iff_of_nonzero' ⟨χ, x1⟩ (fun h => hχ0 (congrArg Subtype.val h))).1 hone ⟨_, hmx⟩
  have ha : a • χ = state c dets x := congrArg Subtype.val ha
  obtain ⟨M, -, m2⟩ := spin2_kernel (n := c.nsites)
  rw [← ha, ← m2, Pi.smul_apply, smul_eq_mul, mul_left_comm, ← x2, ← m2, mul_sum]
  refine sum_congr rfl fun τ _ => ?_
  rw [Pi.smul_apply, smul_eq_mul]
  ring

/-- C111. With ferromagnetic couplings the lowest state of every sector has the largest total spin, half of the number of electrons. -/
theorem C111_total_spin (E : Env) (c : Config) (nbh nbv nb : Nat) (hc : RectConf c nbh nbv nb) (hf : c.Full) (hn : c.nholes + c.nbeta ≤ c.nsites)
    (I : Interactions ℝ) (B : BoolInteractions) (hz : B.bz = true) (hij : B.bij = true) (hJ : I.J < 0 ∧ I.Jhpar < 0 ∧ I.Jhper < 0)
    (hS : B.bSD = true → I.hSDpar = 0 ∧ I.hSDper = 0) (hN : B.btN = true → I.tNNN ≤ 0 ∧ I.tnNNN ≤ 0)
    (ht : c.nholes = 0 ∨ (B.bt = true ∧ I.t ≠ 0))
    (dets : List (List Nat)) (hb : constructBasis c = .ok dets) (H : SpMat ℝ) (hH : buildHamiltonian E c I dets B = .ok H)
    (e : ℝ) (he : IsLeast {μ | Module.End.HasEigenvalue (Matrix.toLin' H.toMatrix) μ} e)
    (x : Fin H.dim → ℝ) (hx : H.toMatrix *ᵥ x = e • x) (σ : Conf c.nsites) :
    spin2 (state c dets x) σ =
      (((c.nsites - c.nholes : Nat) : ℝ) / 2 * (((c.nsites - c.nholes : Nat) : ℝ) / 2 + 1)) * state c dets x σ :=
  total_spin_of_signs E c nbh nbv nb hc hf hn I B (hz.trans hij.symm) (fun _ => ⟨hJ.1.le, hJ.2.1.le, hJ.2.2.le⟩) hS hN dets hb H hH
    (ferro_signs hc hf hn hij hJ hS hN ht hb hH)
    (fun _ _ a1 a2 => ferro_signs (c := { c with nbeta := 0 }) (hc.with_nbeta 0) hf (by show c.nholes + 0 ≤ c.nsites; omega) hij hJ hS hN ht a1 a2) e he x hx σ

/-- The spin number computed for a state with a total spin. -/
theorem spin_number_of {S : SetSem} {swap : Bool} {c : Config} {dets : List (List Nat)} (hf : c.Full) (ho : HolesInOrder S c)
    (hn : c.nholes + c.nbeta ≤ c.nsites) (hb : constructBasis c = .ok dets) {d : Nat} (hd : d = dets.length) (x : Fin d → ℝ) (hne : x ≠ 0)
    (m : Nat) (hm : ∀ σ, spin2 (state c dets x) σ = (m : ℝ) / 2 * ((m : ℝ) / 2 + 1) * state c dets x σ) :
    computeSpinNumber S swap c (List.ofFn x) = .ok (.num ((m : ℝ) / 2)) := by
  have hlen : (List.ofFn x).length = dets.length := by rw [List.length_ofFn, hd]
  obtain ⟨w, w1, w2, w3⟩ := computeS2_spec (two_ne_zero (α := ℝ)) S hf ho hn hb (List.ofFn x) hlen
  have hpos : vdot (List.ofFn x) (List.ofFn x) ≠ 0 := by
    rw [vdot_amp hb hn _ _ hlen hlen]
    have hne' : state c dets x ≠ 0 :=
      fun h => hne (stateMap_injective (K := ℝ) hb hn hd (h.trans ((stateMap (K := ℝ) hb hn hd).map_zero).symm))
    obtain ⟨σ, hσ⟩ := Function.ne_iff.1 hne'
    apply ne_of_gt
    refine lt_of_lt_of_le (mul_self_pos.2 hσ) ?_
    exact single_le_sum (f := fun σ => amp c dets (List.ofFn x) σ * amp c dets (List.ofFn x) σ) (fun τ _ => mul_self_nonneg _) (mem_univ σ)
  have hexp : computeS2ExpVal S c (List.ofFn x) = .ok ((m : ℝ) / 2 * ((m : ℝ) / 2 + 1)) := by
    unfold computeS2ExpVal
    dsimp only
    rw [if_pos hpos, w1]
    have : vdot (List.ofFn x) w = (m : ℝ) / 2 * ((m : ℝ) / 2 + 1) * vdot (List.ofFn x) (List.ofFn x) := by
      rw [vdot_amp hb hn _ _ hlen w2, vdot_amp hb hn _ _ hlen hlen, amp_S2 hb hn _ _ w3, mul_sum]
      refine sum_congr rfl fun σ _ => ?_
      rw [hm σ]; ring
    show Except.ok (vdot (List.ofFn x) w / vdot (List.ofFn x) (List.ofFn x)) = _
    rw [this, mul_div_cancel_right₀ _ hpos]
  obtain ⟨s, s1, rfl⟩ := C41_spin_number_exact S swap c (List.ofFn x) m hexp
  exact s1

/-- C111. The number computed for that state by `compute_spin_number`, as long as the set order lists the holes increasingly. -/
theorem C111_spin_number (E : Env) (S : SetSem) (swap : Bool) (c : Config) (nbh nbv nb : Nat) (hc : RectConf c nbh nbv nb) (hf : c.Full)
    (ho : HolesInOrder S c) (hn : c.nholes + c.nbeta ≤ c.nsites)
    (I : Interactions ℝ) (B : BoolInteractions) (hz : B.bz = true) (hij : B.bij = true) (hJ : I.J < 0 ∧ I.Jhpar < 0 ∧ I.Jhper < 0)
    (hS : B.bSD = true → I.hSDpar = 0 ∧ I.hSDper = 0) (hN : B.btN = true → I.tNNN ≤ 0 ∧ I.tnNNN ≤ 0)
    (ht : c.nholes = 0 ∨ (B.bt = true ∧ I.t ≠ 0))
    (dets : List (List Nat)) (hb : constructBasis c = .ok dets) (H : SpMat ℝ) (hH : buildHamiltonian E c I dets B = .ok H)
    (e : ℝ) (he : IsLeast {μ | Module.End.HasEigenvalue (Matrix.toLin' H.toMatrix) μ} e)
    (x : Fin H.dim → ℝ) (hx : H.toMatrix *ᵥ x = e • x) (hne : x ≠ 0) :
    computeSpinNumber S swap c (List.ofFn x) = .ok (.num (((c.nsites - c.nholes : Nat) : ℝ) / 2)) := by
  obtain ⟨H', h1, hd, _, _⟩ := buildHamiltonian_spec I (hc.tj E) hf hn hb B [] false
  obtain rfl := Except.ok.inj (hH.symm.trans h1)
  exact spin_number_of hf ho hn hb hd x hne _
    (C111_total_spin E c nbh nbv nb hc hf hn I B hz hij hJ hS hN ht dets hb H hH e he x hx)

/-- 2 x 2 lattice with one hole and one down spin: three electrons, spin 3/2. -/
example : ∃ dets H, constructBasis (rectConf 2 2 1 1 1) = .ok dets ∧
    buildHamiltonian exEnv (rectConf 2 2 1 1 1) ferroI dets ⟨true, true, true, true, true, true⟩ = .ok H ∧ H.dim = 12 ∧
    ∃ (e : ℝ) (x : Fin H.dim → ℝ), IsLeast {μ | Module.End.HasEigenvalue (Matrix.toLin' H.toMatrix) μ} e ∧
      Module.finrank ℝ (Module.End.eigenspace (Matrix.toLin' H.toMatrix) e) = 1 ∧ H.toMatrix *ᵥ x = e • x ∧ x ≠ 0 ∧ (∀ i, x i ≠ 0) ∧
      computeSpinNumber SetSem.listed false (rectConf 2 2 1 1 1) (List.ofFn x) = .ok (.num (3 / 2)) := by
  have hc : RectConf (rectConf 2 2 1 1 1) 2 2 1 := rectConf_ok _ _ _ _ _ (by decide) (by decide) (by decide)
  have hf : Config.Full (rectConf 2 2 1 1 1) := by unfold Config.Full; decide
  have hJ : ferroI.J < 0 ∧ ferroI.Jhpar < 0 ∧ ferroI.Jhper < 0 := show (-1 : ℝ) < 0 ∧ (-1 : ℝ) < 0 ∧ (-2 : ℝ) < 0 by norm_num
  have hS : ferroI.hSDpar = 0 ∧ ferroI.hSDper = 0 := ⟨rfl, rfl⟩
  have hN : ferroI.tNNN ≤ 0 ∧ ferroI.tnNNN ≤ 0 := show (-1 : ℝ) ≤ 0 ∧ (-3 : ℝ) ≤ 0 by norm_num
  have ht : ferroI.t ≠ 0 := show (1 : ℝ) ≠ 0 by norm_num
  obtain ⟨d, H, a1, a2, _, a3, _⟩ := C30_no_failure exEnv _ 2 2 1 hc hf (by decide) ferroI ⟨true, true, true, true, true, true⟩ [] false
  have g1 : H.dim = 12 := by
    have : (H.dim : Int) = 12 := a3.trans (by decide)
    omega
  obtain ⟨e, he, hone⟩ := C111_unique exEnv _ 2 2 1 hc hf (by decide) ferroI _ rfl hJ (fun _ => hS) (fun _ => hN) (.inr ⟨rfl, ht⟩) [] false d a1 H a2
  obtain ⟨x, hx, hne⟩ := he.1.exists_hasEigenvector
  rw [Module.End.mem_eigenspace_iff, Matrix.toLin'_apply] at hx
  obtain ⟨H', h1, hd, _, _⟩ := buildHamiltonian_spec ferroI (hc.tj exEnv) hf (by decide) a1 ⟨true, true, true, true, true, true⟩ [] false
  obtain rfl := Except.ok.inj (a2.symm.trans h1)
  refine ⟨d, H, a1, a2, g1, e, x, he, hone, hx, hne, fun i h0 => ?_, ?_⟩
  · have := C111_signs exEnv _ 2 2 1 hc hf (by decide) ferroI _ rfl hJ (fun _ => hS) (fun _ => hN) (.inr ⟨rfl, ht⟩) [] false d a1 H a2 e he x hx hne
      i i (hd ▸ i.2) (hd ▸ i.2)
    rw [h0] at this
    simp at this
  · have := C111_spin_number exEnv SetSem.listed false _ 2 2 1 hc hf (C39_one_hole_in_order SetSem.listed _ (by decide)) (by decide) ferroI _ rfl rfl hJ (fun _ => hS) (fun _ => hN)
      (.inr ⟨rfl, ht⟩) d a1 H a2 e he x hx hne
    refine this.trans ?_
    have h4 : ((rectConf 2 2 1 1 1).nsites - (rectConf 2 2 1 1 1).nholes : Nat) = 3 := by decide
    rw [h4]
    norm_num

end TJ
