/-
Properties C14-C18: bond matrices, bond list, neighbours.
-/
import Verif.Lemmas.Lattice
import Mathlib.Tactic.NormNum

namespace TJ

/-! ### C14 -/

/-- C14. Entry by entry description of the rectangular bond matrix. -/
theorem C14_rectangular (nbh nbv nb : Nat) (h1 : 1 ≤ nbh) (h2 : 1 ≤ nbv) (h3 : 1 ≤ nb) :
    ∃ m, buildRectangularBondMatrix nbh nbv nb = .ok m ∧ m.rows = nbh * nbv * nb ^ 2 ∧
      m.cols = nbh * nbv * nb ^ 2 ∧
      (∀ i < m.rows, ∀ j < m.rows,
        (m.e i j = 1 ↔ Near (gridPos (nbh * nb) i) (gridPos (nbh * nb) j)) ∧ (m.e i j = 0 ∨ m.e i j = 1)) ∧
      (∀ i < m.rows, ∀ j < m.rows, m.e i j = m.e j i) ∧ (∀ i < m.rows, m.e i i = 0) := by
  obtain ⟨m, a, b, c, d⟩ := rect_eq nbh nbv nb h1 h2 h3
  have e : nbh * nbv * nb ^ 2 = nbh * nb * (nbv * nb) := by ring
  rw [e]
  refine ⟨m, a, b, c, ?_, ?_, ?_⟩
  · intro i hi j hj
    rw [d i (b ▸ hi) j (b ▸ hj)]
    unfold nnInd
    split_ifs with h <;> simp [h]
  · intro i hi j hj
    rw [d i (b ▸ hi) j (b ▸ hj), d j (b ▸ hj) i (b ▸ hi), nnInd_comm]
  · intro i hi
    rw [d i (b ▸ hi) i (b ▸ hi)]
    unfold nnInd Near
    simp

/-- Rows do not wrap around: on the 3 x 2 lattice sites 2 and 3 are not bonded, 1 and 4 are. -/
example : (buildRectangularBondMatrix 3 2 1).map (fun m => (m.rows, m.e 2 3, m.e 1 4, m.e 4 5, m.e 0 4)) =
    .ok (6, 0, 1, 1, 0) := by decide

/-! ### C15 -/

/-- C15. The bond matrix of the block with its border is the neighbour matrix of the plane. -/
theorem C15_peripheral (nbh nbv nb : Nat) (h1 : 1 ≤ nbh) (h2 : 1 ≤ nbv) (h3 : 1 ≤ nb) :
    ∃ m, buildBondMatrixNeelEmbedding nbh nbv nb = .ok m ∧
      m.rows = nbh * nbv * nb ^ 2 + 2 * (nbh + nbv) * nb ∧ m.cols = m.rows ∧
      (∀ i < m.rows, ∀ j < m.rows,
        (m.e i j = 1 ↔ Near (periPos (nbh * nb) (nbv * nb) i) (periPos (nbh * nb) (nbv * nb) j)) ∧
          (m.e i j = 0 ∨ m.e i j = 1)) ∧
      (∀ i < m.rows, ∀ j < m.rows, m.e i j = m.e j i) ∧
      (∀ p, nbh * nbv * nb ^ 2 ≤ p → p < m.rows →
        ∃ b < nbh * nbv * nb ^ 2, m.e p b = 1 ∧ ∀ b' < nbh * nbv * nb ^ 2, m.e p b' = 1 → b' = b) := by
  have hW : 1 ≤ nbh * nb := Nat.mul_pos h1 h3
  have hH : 1 ≤ nbv * nb := Nat.mul_pos h2 h3
  obtain ⟨m, a, b, c, d⟩ := neel_eq nbh nbv nb _ _ rfl rfl hW hH
  have e : nbh * nbv * nb ^ 2 = nbh * nb * (nbv * nb) := by ring
  have e' : 2 * (nbh + nbv) * nb = 2 * (nbh * nb + nbv * nb) := by ring
  rw [e, e']
  refine ⟨m, a, b, by rw [b, c], ?_, ?_, ?_⟩
  · intro i hi j hj
    rw [d i (b ▸ hi) j (b ▸ hj)]
    unfold nnInd
    split_ifs with h <;> simp [h]
  · intro i hi j hj
    rw [d i (b ▸ hi) j (b ▸ hj), d j (b ▸ hj) i (b ▸ hi), nnInd_comm]
  · intro p hp1 hp2
    rw [b] at hp2
    clear a c
    generalize nbh * nb = W at *
    generalize nbv * nb = H at *
    clear e e'
    -- the block site next to `p`
    have near : ∀ b' < W * H, (m.e p b' = 1 ↔ Near (periPos W H p) (gridPos W b')) := by
      intro b' hb'
      rw [d p hp2 b' (by omega)]
      unfold nnInd
      have : periPos W H b' = gridPos W b' := by unfold periPos; rw [if_pos hb']
      rw [this]
      split_ifs with h <;> simp [h]
    obtain ⟨x, y, hx, hy, hxy⟩ : ∃ x y, x < W ∧ y < H ∧ ∀ b' < W * H,
        (Near (periPos W H p) (gridPos W b') ↔ b' / W = y ∧ b' % W = x) := by
      have hb2 : ∀ b' < W * H, b' / W < H ∧ b' % W < W := fun b' hb' =>
        ⟨Nat.div_lt_of_lt_mul hb', Nat.mod_lt _ hW⟩
      unfold periPos
      rw [if_neg (by omega)]
      simp only
      have ht : p - W * H < 2 * (W + H) := by omega
      generalize p - W * H = t at *
      by_cases k1 : t < W
      · refine ⟨t, 0, k1, hH, fun b' hb' => ?_⟩
        have := hb2 b' hb'
        rw [near_iff, if_pos k1]
        unfold gridPos
        simp only
        generalize b' / W = y' at *
        generalize b' % W = x' at *
        omega
      · by_cases k2 : t < W + H
        · refine ⟨W - 1, t - W, by omega, by omega, fun b' hb' => ?_⟩
          have := hb2 b' hb'
          rw [near_iff, if_neg k1, if_pos k2]
          unfold gridPos
          simp only
          generalize b' / W = y' at *
          generalize b' % W = x' at *
          omega
        · by_cases k3 : t < 2 * W + H
          · refine ⟨W - 1 - (t - (W + H)), H - 1, by omega, by omega, fun b' hb' => ?_⟩
            have := hb2 b' hb'
            rw [near_iff, if_neg k1, if_neg k2, if_pos k3]
            unfold gridPos
            simp only
            generalize b' / W = y' at *
            generalize b' % W = x' at *
            omega
          · refine ⟨0, H - 1 - (t - (2 * W + H)), by omega, by omega, fun b' hb' => ?_⟩
            have := hb2 b' hb'
            rw [near_iff, if_neg k1, if_neg k2, if_neg k3]
            unfold gridPos
            simp only
            generalize b' / W = y' at *
            generalize b' % W = x' at *
            omega
    have hlt : W * y + x < W * H := by
      calc W * y + x < W * y + W := by omega
        _ = W * (y + 1) := by ring
        _ ≤ W * H := Nat.mul_le_mul_left _ hy
    refine ⟨W * y + x, hlt, ?_, ?_⟩
    · rw [near _ hlt, hxy _ hlt]
      exact (eq_iff_divmod hx).1 rfl
    · intro b' hb' h
      rw [near _ hb', hxy _ hb'] at h
      exact (eq_iff_divmod hx).2 h

/-- The 2 x 2 block: site 4 is below site 0, site 6 right of site 1, site 8 above site 3,
site 10 left of site 2; 5 and 6 (different sides) are not bonded. -/
example : (buildBondMatrixNeelEmbedding 1 1 2).map
    (fun m => [(m.rows : Int), m.e 0 4, m.e 1 6, m.e 3 8, m.e 2 10, m.e 4 5, m.e 5 6]) =
    .ok [12, 1, 1, 1, 1, 1, 0] := by decide

/-- C15. Two peripheral sites are bonded exactly when they follow each other on one side of the block: no bond goes around a corner. -/
theorem C15_sides (nbh nbv nb : Nat) (h1 : 1 ≤ nbh) (h2 : 1 ≤ nbv) (h3 : 1 ≤ nb) :
    ∃ m, buildBondMatrixNeelEmbedding nbh nbv nb = .ok m ∧
      ∀ p q, p < 2 * (nbh + nbv) * nb → q < 2 * (nbh + nbv) * nb →
        (m.e (nbh * nbv * nb ^ 2 + p) (nbh * nbv * nb ^ 2 + q) = 1 ↔
          periSide (nbh * nb) (nbv * nb) p = periSide (nbh * nb) (nbv * nb) q ∧ (p = q + 1 ∨ q = p + 1)) := by
  obtain ⟨m, a, b, _, d, _⟩ := C15_peripheral nbh nbv nb h1 h2 h3
  refine ⟨m, a, fun p q hp hq => ?_⟩
  rw [(d _ (by omega) _ (by omega)).1]
  have e : nbh * nbv * nb ^ 2 = nbh * nb * (nbv * nb) := by ring
  have e' : 2 * (nbh + nbv) * nb = 2 * (nbh * nb + nbv * nb) := by ring
  rw [e'] at hp hq
  rw [e]
  have hW : 1 ≤ nbh * nb := Nat.mul_pos h1 h3
  have hH : 1 ≤ nbv * nb := Nat.mul_pos h2 h3
  clear a b d e e'
  generalize nbh * nb = W at *
  generalize nbv * nb = H at *
  unfold periPos periSide Near
  simp only [Nat.not_lt.2 (Nat.le_add_right _ _), if_false, Nat.add_sub_cancel_left]
  split_ifs <;> simp <;> omega

example : (buildBondMatrixNeelEmbedding 1 1 2).map (fun m => (m.e 4 5, m.e 5 6, periSide 2 2 1, periSide 2 2 2)) = .ok (1, 0, 0, 1) := by decide +kernel

/-! ### C16 -/

/-- C16. The bond matrix of two blocks is the neighbour matrix of the two blocks side by side. -/
theorem C16_two_blocks (nbh nbv nb : Nat) (h1 : 1 ≤ nbh) (h2 : 1 ≤ nbv) (h3 : 1 ≤ nb) :
    ∃ m, buildBondMatrixBlockEmbedding nbh nbv nb = .ok m ∧ m.rows = 2 * (nbh * nbv * nb ^ 2) ∧ m.cols = m.rows ∧
      (∀ i < m.rows, ∀ j < m.rows,
        (m.e i j = 1 ↔ Near (twoPos (nbh * nb) (nbv * nb) i) (twoPos (nbh * nb) (nbv * nb) j)) ∧
          (m.e i j = 0 ∨ m.e i j = 1)) ∧
      (∀ i < m.rows, ∀ j < m.rows, m.e i j = m.e j i) := by
  have hW : 1 ≤ nbh * nb := Nat.mul_pos h1 h3
  have hH : 1 ≤ nbv * nb := Nat.mul_pos h2 h3
  obtain ⟨m, a, b, c, d⟩ := block_eq nbh nbv nb _ _ rfl rfl hW hH
  have e : nbh * nbv * nb ^ 2 = nbh * nb * (nbv * nb) := by ring
  rw [e]
  refine ⟨m, a, b, by rw [b, c], ?_, ?_⟩
  · intro i hi j hj
    rw [d i (b ▸ hi) j (b ▸ hj)]
    unfold nnInd
    split_ifs with h <;> simp [h]
  · intro i hi j hj
    rw [d i (b ▸ hi) j (b ▸ hj), d j (b ▸ hj) i (b ▸ hi), nnInd_comm]

/-- Row-by-row number, in the doubled lattice, of a site of two `W x H` blocks. -/
def relabelTwo (W H s : Nat) : Nat :=
  if s < W * H then 2 * W * (s / W) + s % W else 2 * W * ((s - W * H) / W) + W + (s - W * H) % W

/-- C16. Relabelling the sites row by row turns the two-block matrix into the rectangular
matrix of the doubled lattice. -/
theorem C16_relabelled (nbh nbv nb : Nat) (h1 : 1 ≤ nbh) (h2 : 1 ≤ nbv) (h3 : 1 ≤ nb) :
    ∃ m r, buildBondMatrixBlockEmbedding nbh nbv nb = .ok m ∧ buildRectangularBondMatrix (2 * nbh) nbv nb = .ok r ∧
      m.rows = r.rows ∧
      (∀ i < m.rows, relabelTwo (nbh * nb) (nbv * nb) i < m.rows) ∧
      (∀ i < m.rows, ∀ j < m.rows, relabelTwo (nbh * nb) (nbv * nb) i = relabelTwo (nbh * nb) (nbv * nb) j → i = j) ∧
      ∀ i < m.rows, ∀ j < m.rows,
        m.e i j = r.e (relabelTwo (nbh * nb) (nbv * nb) i) (relabelTwo (nbh * nb) (nbv * nb) j) := by
  have hW : 1 ≤ nbh * nb := Nat.mul_pos h1 h3
  have hH : 1 ≤ nbv * nb := Nat.mul_pos h2 h3
  obtain ⟨m, a, b, c, d⟩ := block_eq nbh nbv nb _ _ rfl rfl hW hH
  obtain ⟨r, a', b', c', d'⟩ := rect_eq (2 * nbh) nbv nb (by omega) h2 h3
  have e : 2 * nbh * nb * (nbv * nb) = 2 * (nbh * nb * (nbv * nb)) := by ring
  have e2 : 2 * nbh * nb = 2 * (nbh * nb) := by ring
  rw [e] at b' d'
  rw [e2] at d'
  refine ⟨m, r, a, a', by rw [b, b'], ?_⟩
  rw [b]
  clear a a' b b' c c' e e2
  generalize nbh * nb = W at *
  generalize nbv * nb = H at *
  have pos : ∀ i < 2 * (W * H), relabelTwo W H i < 2 * (W * H) ∧ gridPos (2 * W) (relabelTwo W H i) = twoPos W H i := by
    intro i hi
    have hm : ∀ y < H, W * y + W ≤ W * H := fun y hy => by
      calc W * y + W = W * (y + 1) := by ring
        _ ≤ W * H := Nat.mul_le_mul_left _ hy
    have key : ∀ x y, x < 2 * W → y < H → (2 * W * y + x < 2 * (W * H) ∧
        gridPos (2 * W) (2 * W * y + x) = ((x : Int), (y : Int))) := by
      intro x y hx hy
      have := hm y hy
      have e : 2 * W * y = 2 * (W * y) := by ring
      refine ⟨by omega, ?_⟩
      obtain ⟨q1, q2⟩ := (eq_iff_divmod (i := 2 * W * y + x) hx).1 rfl
      unfold gridPos
      rw [q1, q2]
    unfold relabelTwo twoPos
    by_cases k : i < W * H
    · rw [if_pos k, if_pos k]
      have := Nat.mod_lt i (show W > 0 by omega)
      exact key (i % W) (i / W) (by omega) (Nat.div_lt_of_lt_mul k)
    · rw [if_neg k, if_neg k]
      have := Nat.mod_lt (i - W * H) (show W > 0 by omega)
      obtain ⟨p, q⟩ := key (W + (i - W * H) % W) ((i - W * H) / W) (by omega) (Nat.div_lt_of_lt_mul (by omega))
      rw [← Nat.add_assoc] at p q
      refine ⟨p, ?_⟩
      rw [q]
      unfold gridPos
      simp only [Prod.mk.injEq, and_true]
      push_cast
      omega
  have inj : ∀ i < 2 * (W * H), ∀ j < 2 * (W * H), twoPos W H i = twoPos W H j → i = j := by
    intro i hi j hj h
    have gi : ∀ i < W * H, i / W < H ∧ i % W < W := fun i hi => ⟨Nat.div_lt_of_lt_mul hi, Nat.mod_lt _ (by omega)⟩
    have hdm := fun i => Nat.div_add_mod i W
    have gp : ∀ i < W * H, ∀ j < W * H, i / W = j / W → i % W = j % W → i = j := by
      intro i _ j _ e1 e2
      rw [← hdm i, ← hdm j, e1, e2]
    unfold twoPos gridPos at h
    by_cases k : i < W * H <;> by_cases l : j < W * H
    · rw [if_pos k, if_pos l] at h
      simp only [Prod.mk.injEq] at h
      exact gp i k j l (by omega) (by omega)
    · rw [if_pos k, if_neg l] at h
      simp only [Prod.mk.injEq] at h
      have := gi i k
      omega
    · rw [if_neg k, if_pos l] at h
      simp only [Prod.mk.injEq] at h
      have := gi j l
      omega
    · rw [if_neg k, if_neg l] at h
      simp only [Prod.mk.injEq] at h
      have := gp (i - W * H) (by omega) (j - W * H) (by omega) (by omega) (by omega)
      omega
  refine ⟨fun i hi => (pos i hi).1, ?_, ?_⟩
  · intro i hi j hj h
    apply inj i hi j hj
    rw [← (pos i hi).2, ← (pos j hj).2, h]
  · intro i hi j hj
    rw [d i hi j hj, d' _ (pos i hi).1 _ (pos j hj).1]
    unfold nnInd
    rw [(pos i hi).2, (pos j hj).2]

/-- Two 2 x 1 blocks: sites 1 and 2 are bonded (1 is the right end of the first block). -/
example : (buildBondMatrixBlockEmbedding 2 1 1).map (fun m => (m.rows, m.e 1 2, m.e 2 1, m.e 0 3, m.e 0 1)) =
    .ok (4, 1, 1, 0, 1) := by decide

/-! ### C17 -/

/-- C17, with restrictions `(A, B)`. -/
theorem C17_bond_list_restricted (S : SetSem) (bond : NdMat) (A B : List Nat) :
    ∃ l, buildBondList S bond (.pair A B) = .ok l ∧ l.Nodup ∧
      ∀ i j, (i, j) ∈ l ↔ (i ∈ A ∧ j ∈ B ∧ i ≤ j ∧ j < bond.rows ∧ bond.e i j = 1) :=
  ⟨_, rfl, nodup_bondGo S bond A B, mem_bondGo S bond A B⟩

/-- C17, without restriction: each bonded pair exactly once, smaller site first. -/
theorem C17_bond_list (S : SetSem) (bond : NdMat) (hsymm : ∀ i < bond.rows, ∀ j < bond.rows, bond.e i j = bond.e j i)
    (hloop : ∀ i < bond.rows, bond.e i i = 0) :
    ∃ l, buildBondList S bond (.list []) = .ok l ∧ l.Nodup ∧
      (∀ i j, (i, j) ∈ l ↔ (i < j ∧ j < bond.rows ∧ bond.e i j = 1)) ∧
      (∀ a b, a < bond.rows → b < bond.rows → bond.e a b = 1 →
        ((a, b) ∈ l ∧ (b, a) ∉ l) ∨ ((b, a) ∈ l ∧ (a, b) ∉ l)) := by
  have hm : ∀ i j, _ ↔ _ := mem_bondGo S bond (List.range bond.rows) (List.range bond.rows)
  have key : ∀ i j, (i, j) ∈ (S.inter (List.range bond.rows) (List.range bond.rows)).flatMap (fun i =>
      (S.inter (List.range' i (bond.rows - i)) (List.range bond.rows)).filterMap (fun j =>
        if bond.e i j = 1 then some (i, j) else none)) ↔ (i < j ∧ j < bond.rows ∧ bond.e i j = 1) := by
    intro i j
    rw [hm]
    simp only [List.mem_range]
    constructor
    · rintro ⟨h1, h2, h3, h4, h5⟩
      refine ⟨Nat.lt_of_le_of_ne h3 ?_, h4, h5⟩
      rintro rfl
      rw [hloop i h1] at h5
      exact absurd h5 (by decide)
    · rintro ⟨h1, h2, h3⟩
      exact ⟨by omega, h2, by omega, h2, h3⟩
  refine ⟨_, rfl, nodup_bondGo S bond _ _, key, ?_⟩
  intro a b ha hb hab
  rw [key, key]
  have hne : a ≠ b := by
    rintro rfl
    rw [hloop a ha] at hab
    exact absurd hab (by decide)
  have hba : bond.e b a = 1 := by rw [← hsymm a ha b hb]; exact hab
  rcases Nat.lt_or_gt_of_ne hne with h | h
  · exact Or.inl ⟨⟨h, hb, hab⟩, fun h' => by omega⟩
  · exact Or.inr ⟨⟨h, ha, hba⟩, fun h' => by omega⟩

/-- A one-dimensional restriction is not understood by `build_bond_list`. -/
theorem C17_list_restriction_fails (S : SetSem) (bond : NdMat) (x : Nat) (l : List Nat) :
    buildBondList S bond (.list (x :: l)) = .error .typeError := rfl

example : (buildRectangularBondMatrix 2 2 1 >>= fun m => buildBondList SetSem.reversed m (.list [])) =
    .ok [(2, 3), (1, 3), (0, 2), (0, 1)] := by decide

/-! ### C18 -/

/-- C18. `get_neighbors` returns exactly the allowed sites bonded to the given one. -/
theorem C18_neighbors (S : SetSem) (bond : NdMat) (r : RestrArg) (a : Nat) (ha : a < bond.rows) :
    ∃ l, getNeighbors S a bond r = .ok l ∧ l.Nodup ∧
      ∀ s, s ∈ l ↔ (s < bond.rows ∧ allowed bond.rows r s ∧ bond.e a s = 1) :=
  getNeighbors_spec S bond r a ha

/-- C18. A site outside the lattice raises `IndexError`. -/
theorem C18_outside (S : SetSem) (bond : NdMat) (r : RestrArg) (a : Nat) (ha : bond.rows ≤ a) :
    getNeighbors S a bond r = .error .indexError ∧ getSecondNeighbors S a bond r = .error .indexError := by
  have h : ∀ r, getNeighbors S a bond r = .error .indexError := fun r => if_neg (by omega)
  refine ⟨h r, ?_⟩
  unfold getSecondNeighbors
  simp only [h]
  rfl

/-- C18. `get_second_neighbors` returns exactly the allowed sites, different from and not
bonded to the given site, that share a neighbour with it. -/
theorem C18_second_neighbors (S : SetSem) (bond : NdMat) (r : RestrArg) (a : Nat) (ha : a < bond.rows) :
    ∃ l, getSecondNeighbors S a bond r = .ok l ∧ l.Nodup ∧
      ∀ s, s ∈ l ↔ (s < bond.rows ∧ allowed bond.rows r s ∧ s ≠ a ∧ bond.e a s ≠ 1 ∧
        ∃ b < bond.rows, bond.e a b = 1 ∧ bond.e b s = 1) := by
  set r' : RestrArg := match r with
    | .list [] => RestrArg.pair (List.range bond.rows) (List.range bond.rows)
    | r => r with hr'
  have hal : ∀ s, s < bond.rows → (allowed bond.rows r' s ↔ allowed bond.rows r s) := by
    intro s hs
    rw [hr']
    rcases r with l | ⟨x, y⟩
    · cases l with
      | nil => simp [allowed]
      | cons x l => rfl
    · rfl
  obtain ⟨nb, h1, h2, h3⟩ := getNeighbors_spec S bond (.list []) a ha
  have h3' : ∀ s, s ∈ nb ↔ s < bond.rows ∧ bond.e a s = 1 := by
    intro s; rw [h3]; simp [allowed]
  obtain ⟨secs, h4, h5⟩ := mapM_ok_exists (f := fun neigh => do
      let nn ← getNeighbors S neigh bond r'
      return S.diff nn (a :: nb))
    (P := fun b l => ∀ s, s ∈ l ↔ (s < bond.rows ∧ allowed bond.rows r' s ∧ bond.e b s = 1) ∧ s ∉ a :: nb) nb (by
      intro b hb
      obtain ⟨l, g1, _, g3⟩ := getNeighbors_spec S bond r' b ((h3' b).1 hb).1
      refine ⟨S.diff l (a :: nb), bind_ok g1 rfl, ?_⟩
      intro s
      rw [S.mem_diff, g3])
  refine ⟨S.ofList secs.flatten, ?_, S.nodup_ofList _, ?_⟩
  · unfold getSecondNeighbors
    exact bind_ok h1 (bind_ok h4 rfl)
  · intro s
    rw [S.mem_ofList, List.mem_flatten]
    have hex : ∀ (l : List Nat) (ls : List (List Nat)), List.Forall₂ (fun b l => ∀ s, s ∈ l ↔
        (s < bond.rows ∧ allowed bond.rows r' s ∧ bond.e b s = 1) ∧ s ∉ a :: nb) l ls →
        ((∃ x, x ∈ ls ∧ s ∈ x) ↔ ∃ b ∈ l, (s < bond.rows ∧ allowed bond.rows r' s ∧ bond.e b s = 1) ∧ s ∉ a :: nb) := by
      intro l ls h
      induction h with
      | nil => simp
      | cons h _ ih =>
        simp only [List.mem_cons, exists_eq_or_imp] at ih ⊢
        rw [ih, h s]
        simp only [List.mem_cons]
    rw [hex nb secs h5]
    constructor
    · rintro ⟨b, hb, ⟨g1, g2, g3⟩, g4⟩
      rw [List.mem_cons, not_or] at g4
      refine ⟨g1, (hal s g1).1 g2, g4.1, ?_, b, ((h3' b).1 hb).1, ((h3' b).1 hb).2, g3⟩
      intro h
      exact g4.2 ((h3' s).2 ⟨g1, h⟩)
    · rintro ⟨g1, g2, g3, g4, b, g5, g6, g7⟩
      refine ⟨b, (h3' b).2 ⟨g5, g6⟩, ⟨g1, (hal s g1).2 g2, g7⟩, ?_⟩
      rw [List.mem_cons, not_or]
      exact ⟨g3, fun h => g4 ((h3' s).1 h).2⟩

/-- On the 3 x 3 lattice, site 0: neighbours 1 and 3, second neighbours 2, 4 and 6. -/
example : (buildRectangularBondMatrix 3 3 1 >>= fun m => do
    let a ← getNeighbors SetSem.sorted 0 m (.list [])
    let b ← getSecondNeighbors SetSem.sorted 0 m (.list [])
    return (a, b)) = .ok ([1, 3], [2, 4, 6]) := by decide

end TJ
