/-
Entries of the bond matrices.
-/
import Verif.Model.Lattice
import Verif.Spec.Lattice
import Mathlib.Tactic.Ring
import Mathlib.Tactic.Linarith

namespace TJ

theorem bind_ok {α β : Type} {x : Py α} {f : α → Py β} {a : α} {y : Py β} (h : x = .ok a) (h' : f a = y) :
    (x >>= f) = y := by
  rw [h]; exact h'

theorem foldlM_range_succ {β : Type} {f : β → Nat → Py β} {k : Nat} {b m m' : β}
    (h : (List.range k).foldlM f b = .ok m) (h' : f m k = .ok m') : (List.range (k + 1)).foldlM f b = .ok m' := by
  rw [List.range_succ, List.foldlM_append, h]
  show (List.foldlM f m [k] : Py β) = _
  rw [List.foldlM_cons, h']
  rfl

theorem buildJ_eq (dim : Nat) (h : 1 ≤ dim) : ∃ J, buildJMatrix dim = .ok J ∧ J.rows = dim ∧ J.cols = dim ∧
    ∀ i < dim, ∀ j < dim, J.e i j = if j = i + 1 ∨ i = j + 1 then 1 else 0 := by
  refine ⟨⟨dim - 1 + 1, dim - 1 + 1, fun i j => (if j = i + 1 then (List.replicate (dim - 1) (1 : Int)).getD i 0 else 0)
    + (if i = j + 1 then (List.replicate (dim - 1) (1 : Int)).getD j 0 else 0)⟩, ?_, by simp; omega, by simp; omega, ?_⟩
  · simp [buildJMatrix, NdMat.add, NdMat.diagUp, NdMat.diagDown]
  · intro i hi j hj
    simp only [List.getD_eq_getElem?_getD, List.getElem?_replicate]
    by_cases a : j = i + 1
    · rw [if_pos a, if_pos (by omega), if_neg (by omega), if_pos (Or.inl a)]; rfl
    · by_cases b : i = j + 1
      · rw [if_neg a, if_pos b, if_pos (by omega), if_pos (Or.inr b)]; rfl
      · rw [if_neg a, if_neg b, if_neg (by omega)]; rfl

theorem setBlock_ok (A B : NdMat) (r0 r1 c0 c1 : Nat) (hr : r1 ≤ A.rows) (hc : c1 ≤ A.cols)
    (h1 : B.rows = r1 - r0) (h2 : B.cols = c1 - c0) :
    A.setBlock r0 r1 c0 c1 B = .ok ⟨A.rows, A.cols, fun i j =>
      if r0 ≤ i ∧ i < r1 ∧ c0 ≤ j ∧ j < c1 then B.e (i - r0) (j - c0) else A.e i j⟩ := by
  unfold NdMat.setBlock
  simp only [Nat.min_eq_left hr, Nat.min_eq_left hc]
  rw [if_pos ⟨h1, h2⟩]

/-- Row `k` of blocks. -/
theorem block_iff {W k i : Nat} (hW : 1 ≤ W) : (W * k ≤ i ∧ i < W * (k + 1)) ↔ i / W = k := by
  rw [Nat.div_eq_iff (by omega)]
  constructor
  · rintro ⟨h1, h2⟩
    have e1 : W * k = k * W := Nat.mul_comm _ _
    have e2 : W * (k + 1) = k * W + W := by ring
    constructor
    · omega
    · omega
  · rintro ⟨h1, h2⟩
    have e1 : W * k = k * W := Nat.mul_comm _ _
    have e2 : W * (k + 1) = k * W + W := by ring
    constructor
    · omega
    · omega

theorem sub_block {W k i : Nat} (h : i / W = k) : i - W * k = i % W := by
  have := Nat.div_add_mod i W
  rw [h] at this
  omega

theorem rect_loop1 (W H : Nat) (hW : 1 ≤ W) (J : NdMat) (hJ1 : J.rows = W) (hJ2 : J.cols = W) :
    ∀ k ≤ H, ∃ m, (List.range k).foldlM (fun (m : NdMat) iB =>
      m.setBlock (W * iB) (W * (iB + 1)) (W * iB) (W * (iB + 1)) J) (NdMat.zeros (W * H) (W * H)) = .ok m ∧
      m.rows = W * H ∧ m.cols = W * H ∧
      ∀ i j, m.e i j = if i / W = j / W ∧ i / W < k then J.e (i % W) (j % W) else 0 := by
  intro k
  induction k with
  | zero => intro _; exact ⟨_, rfl, rfl, rfl, by simp [NdMat.zeros]⟩
  | succ k ih =>
    intro hk
    obtain ⟨m, h1, h2, h3, h4⟩ := ih (by omega)
    have hle : W * (k + 1) ≤ W * H := Nat.mul_le_mul_left _ hk
    have hwk : W * (k + 1) - W * k = W := by rw [Nat.mul_succ]; omega
    refine ⟨_, foldlM_range_succ h1
      (setBlock_ok m J _ _ _ _ (by omega) (by omega) (by omega) (by omega)), h2, h3, ?_⟩
    · intro i j
      show (if W * k ≤ i ∧ i < W * (k + 1) ∧ W * k ≤ j ∧ j < W * (k + 1) then _ else _) = _
      have hi := @block_iff W k i hW
      have hj := @block_iff W k j hW
      by_cases a : i / W = k
      · by_cases b : j / W = k
        · rw [if_pos ⟨(hi.2 a).1, (hi.2 a).2, (hj.2 b).1, (hj.2 b).2⟩, sub_block a, sub_block b,
            if_pos ⟨by omega, by omega⟩]
        · rw [if_neg (fun h => b (hj.1 ⟨h.2.2.1, h.2.2.2⟩)), h4, if_neg (by omega), if_neg (by omega)]
      · rw [if_neg (fun h => a (hi.1 ⟨h.1, h.2.1⟩)), h4]
        have : (i / W = j / W ∧ i / W < k) ↔ (i / W = j / W ∧ i / W < k + 1) := by omega
        simp only [this]

theorem rect_loop2 (W H : Nat) (hW : 1 ≤ W) (m0 : NdMat) (h1 : m0.rows = W * H) (h2 : m0.cols = W * H) :
    ∀ k, k + 1 ≤ H → ∃ m, (List.range k).foldlM (fun (m : NdMat) jB => do
      let m ← m.setBlock (W * (jB + 1)) (W * (jB + 2)) (W * jB) (W * (jB + 1)) (NdMat.eye W)
      m.setBlock (W * jB) (W * (jB + 1)) (W * (jB + 1)) (W * (jB + 2)) (NdMat.eye W)) m0 = .ok m ∧
      m.rows = W * H ∧ m.cols = W * H ∧
      ∀ i j, m.e i j = if (i / W = j / W + 1 ∧ j / W < k) ∨ (j / W = i / W + 1 ∧ i / W < k) then
        (if i % W = j % W then 1 else 0) else m0.e i j := by
  intro k
  induction k with
  | zero => intro _; exact ⟨_, rfl, h1, h2, by simp⟩
  | succ k ih =>
    intro hk
    obtain ⟨m, g1, g2, g3, g4⟩ := ih (by omega)
    have hle : W * (k + 2) ≤ W * H := Nat.mul_le_mul_left _ hk
    have e1 : W * (k + 1) = W * k + W := by ring
    have e2 : W * (k + 2) = W * k + W + W := by ring
    have s1 := setBlock_ok m (NdMat.eye W) (W * (k + 1)) (W * (k + 2)) (W * k) (W * (k + 1))
      (by omega) (by omega) (by simp only [NdMat.eye]; omega) (by simp only [NdMat.eye]; omega)
    have s2 := setBlock_ok ⟨m.rows, m.cols, fun i j => if W * (k + 1) ≤ i ∧ i < W * (k + 2) ∧ W * k ≤ j ∧ j < W * (k + 1)
        then (NdMat.eye W).e (i - W * (k + 1)) (j - W * k) else m.e i j⟩ (NdMat.eye W)
      (W * k) (W * (k + 1)) (W * (k + 1)) (W * (k + 2))
      (by simp only; omega) (by simp only; omega) (by simp only [NdMat.eye]; omega) (by simp only [NdMat.eye]; omega)
    refine ⟨_, foldlM_range_succ g1 (bind_ok s1 s2), g2, g3, ?_⟩
    · intro i j
      have hi := @block_iff W k i hW
      have hj := @block_iff W k j hW
      have hi' : (W * (k + 1) ≤ i ∧ i < W * (k + 2)) ↔ _ := @block_iff W (k + 1) i hW
      have hj' : (W * (k + 1) ≤ j ∧ j < W * (k + 2)) ↔ _ := @block_iff W (k + 1) j hW
      have hA : (W * k ≤ i ∧ i < W * (k + 1) ∧ W * (k + 1) ≤ j ∧ j < W * (k + 2)) ↔ (i / W = k ∧ j / W = k + 1) := by
        rw [← hi, ← hj', and_assoc]
      have hB : (W * (k + 1) ≤ i ∧ i < W * (k + 2) ∧ W * k ≤ j ∧ j < W * (k + 1)) ↔ (i / W = k + 1 ∧ j / W = k) := by
        rw [← hi', ← hj, and_assoc]
      simp only [hA, hB, g4, NdMat.eye]
      by_cases a : i / W = k ∧ j / W = k + 1
      · rw [if_pos a, sub_block a.1, sub_block a.2]; exact (if_pos (by omega)).symm
      · rw [if_neg a]
        by_cases b : i / W = k + 1 ∧ j / W = k
        · rw [if_pos b, sub_block b.1, sub_block b.2]; exact (if_pos (by omega)).symm
        · rw [if_neg b]
          have : ((i / W = j / W + 1 ∧ j / W < k) ∨ (j / W = i / W + 1 ∧ i / W < k)) ↔
            ((i / W = j / W + 1 ∧ j / W < k + 1) ∨ (j / W = i / W + 1 ∧ i / W < k + 1)) := by omega
          simp only [this]

theorem near_iff {p q : Pt} : Near p q ↔ (p.1 = q.1 ∧ (p.2 = q.2 + 1 ∨ q.2 = p.2 + 1)) ∨
    (p.2 = q.2 ∧ (p.1 = q.1 + 1 ∨ q.1 = p.1 + 1)) := by
  unfold Near
  omega

theorem near_gridPos_iff {W i j : Nat} : Near (gridPos W i) (gridPos W j) ↔
    (i / W = j / W ∧ (j % W = i % W + 1 ∨ i % W = j % W + 1)) ∨
    (i % W = j % W ∧ (i / W = j / W + 1 ∨ j / W = i / W + 1)) := by
  unfold Near gridPos
  simp only
  omega

/-- Indicator of neighbouring sites. -/
def nnInd (pos : Nat → Pt) (i j : Nat) : Int := if Near (pos i) (pos j) then 1 else 0

theorem rect_eq (nbh nbv nb : Nat) (h1 : 1 ≤ nbh) (h2 : 1 ≤ nbv) (h3 : 1 ≤ nb) :
    ∃ m, buildRectangularBondMatrix nbh nbv nb = .ok m ∧ m.rows = (nbh * nb) * (nbv * nb) ∧
      m.cols = (nbh * nb) * (nbv * nb) ∧
      ∀ i < (nbh * nb) * (nbv * nb), ∀ j < (nbh * nb) * (nbv * nb), m.e i j = nnInd (gridPos (nbh * nb)) i j := by
  have hW : 1 ≤ nb * nbh := Nat.mul_pos h3 h1
  have hH : 1 ≤ nb * nbv := Nat.mul_pos h3 h2
  obtain ⟨J, j1, j2, j3, j4⟩ := buildJ_eq (nb * nbh) hW
  obtain ⟨m, a1, a2, a3, a4⟩ := rect_loop1 (nb * nbh) (nb * nbv) hW J j2 j3 (nb * nbv) (Nat.le_refl _)
  obtain ⟨m', b1, b2, b3, b4⟩ := rect_loop2 (nb * nbh) (nb * nbv) hW m a2 a3 (nb * nbv - 1) (by omega)
  have hn : nbh * nbv * nb ^ 2 = (nb * nbh) * (nb * nbv) := by ring
  rw [Nat.mul_comm nbh nb, Nat.mul_comm nbv nb]
  refine ⟨m', ?_, b2, b3, ?_⟩
  · unfold buildRectangularBondMatrix
    simp only [hn]
    exact bind_ok j1 (bind_ok a1 b1)
  · intro i hi j hj
    have hi' : i / (nb * nbh) < nb * nbv := Nat.div_lt_of_lt_mul hi
    have hj' : j / (nb * nbh) < nb * nbv := Nat.div_lt_of_lt_mul hj
    have hi2 : i % (nb * nbh) < nb * nbh := Nat.mod_lt _ hW
    have hj2 : j % (nb * nbh) < nb * nbh := Nat.mod_lt _ hW
    unfold nnInd
    rw [b4, a4, j4 _ hi2 _ hj2]
    simp only [near_gridPos_iff]
    generalize i / (nb * nbh) = a, j / (nb * nbh) = b, i % (nb * nbh) = c, j % (nb * nbh) = d at *
    split_ifs <;> first | rfl | omega


/-! ### Peripheral and two-block lattices -/

theorem setEntry_loop (A : NdMat) (r c : Nat → Nat) : ∀ K, (∀ k < K, r k < A.rows ∧ c k < A.cols) →
    ∃ m, (List.range K).foldlM (fun (m : NdMat) k => m.setEntry (r k) (c k) 1) A = .ok m ∧ m.rows = A.rows ∧
      m.cols = A.cols ∧ ∀ i j, m.e i j = if ∃ k, k < K ∧ i = r k ∧ j = c k then 1 else A.e i j := by
  intro K
  induction K with
  | zero => intro _; exact ⟨A, rfl, rfl, rfl, by simp⟩
  | succ K ih =>
    intro h
    obtain ⟨m, h1, h2, h3, h4⟩ := ih (fun k hk => h k (by omega))
    have hK := h K (by omega)
    refine ⟨⟨m.rows, m.cols, fun i j => if i = r K ∧ j = c K then 1 else m.e i j⟩,
      foldlM_range_succ h1 (by unfold NdMat.setEntry; rw [if_pos (by rw [h2, h3]; exact hK)]), h2, h3, ?_⟩
    intro i j
    show (if i = r K ∧ j = c K then 1 else m.e i j) = _
    rw [h4]
    by_cases a : i = r K ∧ j = c K
    · rw [if_pos a, if_pos ⟨K, by omega, a.1, a.2⟩]
    · rw [if_neg a]
      have : (∃ k, k < K ∧ i = r k ∧ j = c k) ↔ (∃ k, k < K + 1 ∧ i = r k ∧ j = c k) := by
        constructor
        · rintro ⟨k, hk, e⟩; exact ⟨k, by omega, e⟩
        · rintro ⟨k, hk, e⟩
          refine ⟨k, ?_, e⟩
          rcases Nat.lt_succ_iff_lt_or_eq.1 hk with h | h
          · exact h
          · subst h; exact absurd e a
      simp only [this]

theorem concat0_ok (A B : NdMat) (ra rb c : Nat) (h1 : A.rows = ra) (h2 : B.rows = rb) (h3 : A.cols = c)
    (h4 : B.cols = c) : ∃ C, NdMat.concat0 A B = .ok C ∧ C.rows = ra + rb ∧ C.cols = c ∧
      ∀ i j, C.e i j = if i < ra then A.e i j else B.e (i - ra) j := by
  subst h1 h2 h3
  exact ⟨_, if_pos h4.symm, rfl, rfl, fun _ _ => rfl⟩

theorem concat1_ok (A B : NdMat) (r ca cb : Nat) (h1 : A.rows = r) (h2 : B.rows = r) (h3 : A.cols = ca)
    (h4 : B.cols = cb) : ∃ C, NdMat.concat1 A B = .ok C ∧ C.rows = r ∧ C.cols = ca + cb ∧
      ∀ i j, C.e i j = if j < ca then A.e i j else B.e i (j - ca) := by
  subst h1 h3 h4
  exact ⟨_, if_pos h2.symm, rfl, rfl, fun _ _ => rfl⟩

theorem eq_iff_divmod {W i x y : Nat} (hx : x < W) : i = W * y + x ↔ i / W = y ∧ i % W = x := by
  constructor
  · rintro rfl
    exact ⟨by rw [Nat.mul_add_div (by omega), Nat.div_eq_of_lt hx]; omega, by rw [Nat.mul_add_mod, Nat.mod_eq_of_lt hx]⟩
  · rintro ⟨rfl, rfl⟩
    exact (Nat.div_add_mod i W).symm

/-- Connection between the block and the peripheral sites, in coordinates. -/
theorem buildT_eq (nbh nbv nb W H : Nat) (eW : nbh * nb = W) (eH : nbv * nb = H) (hW : 1 ≤ W) (hH : 1 ≤ H) :
    ∃ T, buildTMatrix nbh nbv nb = .ok T ∧ T.rows = W * H ∧ T.cols = 2 * (W + H) ∧
      ∀ i < W * H, ∀ j < 2 * (W + H), T.e i j =
        if (j < W ∧ i / W = 0 ∧ i % W = j) ∨ (W ≤ j ∧ j < W + H ∧ i % W = W - 1 ∧ i / W = j - W) ∨
          (W + H ≤ j ∧ j < 2 * W + H ∧ i / W = H - 1 ∧ i % W = W - 1 - (j - (W + H))) ∨
          (2 * W + H ≤ j ∧ i % W = 0 ∧ i / W = H - 1 - (j - (2 * W + H))) then 1 else 0 := by
  have hn : nbh * nbv * nb ^ 2 = W * H := by rw [← eW, ← eH]; ring
  have e0 : ∀ a, a * nbh * nb = W * a := fun a => by rw [← eW]; ring
  have hs : W * (H - 1) + W = W * H := by
    obtain ⟨H', rfl⟩ : ∃ H', H = H' + 1 := ⟨H - 1, by omega⟩
    simp; ring
  have hbd : ∀ k < H, W * k + W ≤ W * H := by
    intro k hk
    calc W * k + W = W * (k + 1) := by ring
      _ ≤ W * H := Nat.mul_le_mul_left _ hk
  obtain ⟨c1, a1, a2, a3, a4⟩ := setEntry_loop (NdMat.zeros (W * H) H) (fun k => W * (k + 1) - 1) (fun k => k) H
    (fun k hk => by
      have := hbd k hk
      have e : W * (k + 1) = W * k + W := by ring
      simp only [NdMat.zeros]; constructor <;> omega)
  obtain ⟨c2, b1, b2, b3, b4⟩ := setEntry_loop (NdMat.zeros W W) (fun k => W - 1 - k) (fun k => k) W
    (fun k hk => by simp only [NdMat.zeros]; constructor <;> omega)
  obtain ⟨c3, d1, d2, d3, d4⟩ := setEntry_loop (NdMat.zeros (W * H) H) (fun k => W * (H - k - 1)) (fun k => k) H
    (fun k hk => by
      have := hbd (H - k - 1) (by omega)
      simp only [NdMat.zeros]; constructor <;> omega)
  simp only [NdMat.zeros] at a2 a3 a4 b2 b3 b4 d2 d3 d4
  obtain ⟨t1, p1, p2, p3, p4⟩ := concat0_ok (NdMat.eye W) (NdMat.zeros (W * (H - 1)) W) W (W * (H - 1)) W rfl rfl rfl rfl
  obtain ⟨t2, q1, q2, q3, q4⟩ := concat1_ok t1 c1 (W * H) W H (by rw [p2]; omega) a2 p3 a3
  obtain ⟨t3, r1, r2, r3, r4⟩ := concat0_ok (NdMat.zeros (W * (H - 1)) W) c2 (W * (H - 1)) W W rfl b2 rfl b3
  obtain ⟨t4, s1, s2, s3, s4⟩ := concat1_ok t2 t3 (W * H) (W + H) W q2 (by rw [r2]; omega) q3 r3
  obtain ⟨t5, u1, u2, u3, u4⟩ := concat1_ok t4 c3 (W * H) (W + H + W) H s2 d2 s3 d3
  refine ⟨t5, ?_, u2, ?_, ?_⟩
  · unfold buildTMatrix
    simp only [hn, e0, eW, eH]
    exact bind_ok p1 (bind_ok a1 (bind_ok q1 (bind_ok b1 (bind_ok r1 (bind_ok s1 (bind_ok d1 u1))))))
  · omega
  · intro i hi j hj
    simp only [u4, s4, q4, p4, r4, NdMat.eye, NdMat.zeros, a4, b4, d4]
    clear u4 s4 q4 p4 r4 a4 b4 d4 u1 s1 q1 p1 r1 a1 b1 d1 u2 s2 q2 p2 r2 a2 b2 d2 u3 s3 q3 p3 r3 a3 b3 d3
    clear t1 t2 t3 t4 t5 c1 c2 c3 hn e0 hbd eW eH
    have hi' : i / W < H := Nat.div_lt_of_lt_mul hi
    have hi2 : i % W < W := Nat.mod_lt _ hW
    have hdm := Nat.div_add_mod i W
    by_cases q1 : j < W
    · rw [if_pos (by omega), if_pos (by omega), if_pos q1]
      by_cases r1 : i < W
      · rw [if_pos r1]
        have : i / W = 0 := Nat.div_eq_of_lt r1
        have : i % W = i := Nat.mod_eq_of_lt r1
        refine if_congr ?_ rfl rfl
        omega
      · rw [if_neg r1, if_neg]
        rintro (⟨_, h0, _⟩ | ⟨h, _⟩ | ⟨h, _⟩ | ⟨h, _⟩)
        · exact r1 ((Nat.div_eq_zero_iff_lt hW).1 h0)
        · omega
        · omega
        · omega
    · by_cases q2 : j < W + H
      · rw [if_pos (by omega), if_pos q2, if_neg q1]
        refine if_congr ?_ rfl rfl
        have key : i = W * (j - W + 1) - 1 ↔ i / W = j - W ∧ i % W = W - 1 := by
          rw [← eq_iff_divmod (by omega)]
          have : W * (j - W + 1) = W * (j - W) + W := by ring
          omega
        constructor
        · rintro ⟨k, hk, e1, e2⟩
          subst e2
          have := key.1 e1
          right; left; exact ⟨by omega, q2, this.2, this.1⟩
        · rintro (⟨h, _⟩ | ⟨_, _, h1, h2⟩ | ⟨h, _⟩ | ⟨h, _⟩)
          · omega
          · exact ⟨j - W, by omega, key.2 ⟨h2, h1⟩, rfl⟩
          · omega
          · omega
      · by_cases q3 : j < W + H + W
        · rw [if_pos q3, if_neg q2]
          have key : i = W * (H - 1) + (W - 1 - (j - (W + H))) ↔ _ := eq_iff_divmod (W := W) (by omega)
          by_cases r : i < W * (H - 1)
          · rw [if_pos r, if_neg]
            rintro (⟨h, _⟩ | ⟨_, h, _⟩ | ⟨_, _, h1, h2⟩ | ⟨h, _⟩)
            · omega
            · omega
            · have := key.2 ⟨h1, h2⟩; omega
            · omega
          · rw [if_neg r]
            refine if_congr ?_ rfl rfl
            constructor
            · rintro ⟨k, hk, e1, e2⟩
              have := key.1 (by omega)
              right; right; left; exact ⟨by omega, by omega, this.1, this.2⟩
            · rintro (⟨h, _⟩ | ⟨_, h, _⟩ | ⟨_, _, h1, h2⟩ | ⟨h, _⟩)
              · omega
              · omega
              · have := key.2 ⟨h1, h2⟩
                exact ⟨j - (W + H), by omega, by omega, rfl⟩
              · omega
        · rw [if_neg q3]
          refine if_congr ?_ rfl rfl
          have key : i = W * (H - 1 - (j - (2 * W + H))) + 0 ↔ _ := eq_iff_divmod (W := W) (by omega)
          constructor
          · rintro ⟨k, hk, e1, e2⟩
            have e3 : H - k - 1 = H - 1 - (j - (2 * W + H)) := by omega
            rw [e3] at e1
            have := key.1 e1
            right; right; right; exact ⟨by omega, this.2, this.1⟩
          · rintro (⟨h, _⟩ | ⟨_, h, _⟩ | ⟨_, h, _⟩ | ⟨_, h1, h2⟩)
            · omega
            · omega
            · omega
            · have e1 := key.2 ⟨h2, h1⟩
              refine ⟨j - (2 * W + H), by omega, ?_, by omega⟩
              have e3 : H - (j - (2 * W + H)) - 1 = H - 1 - (j - (2 * W + H)) := by omega
              rw [e3]; exact e1

/-- Side of the border on which the `t`-th peripheral site lies. -/
def sideOf (W H t : Nat) : Nat := if t < W then 0 else if t < W + H then 1 else if t < 2 * W + H then 2 else 3

/-- Splits all conditionals and decides the arithmetic. -/
macro "ifomega" : tactic => `(tactic| (split_ifs <;>
  (try simp only [false_and, true_and, not_false_eq_true, false_iff, iff_false, true_iff]) <;> (try omega)))

theorem outer_entry (W H : Nat) (Jh Jv : Nat → Nat → Int)
    (a4 : ∀ i < W, ∀ j < W, Jh i j = if j = i + 1 ∨ i = j + 1 then 1 else 0)
    (b4 : ∀ i < H, ∀ j < H, Jv i j = if j = i + 1 ∨ i = j + 1 then 1 else 0)
    (i j : Nat) (hi : i < 2 * (W + H)) (hj : j < 2 * (W + H)) :
    (if j < W + H + W then
      if j < W + H then
        if j < W then if i < W then Jh i j else 0
        else if i < W + H then if i < W then 0 else Jv (i - W) (j - W) else 0
      else if i < W + H + W then if i < W + H then 0 else Jh (i - (W + H)) (j - (W + H)) else 0
    else if i < 2 * W + H then 0 else Jv (i - (2 * W + H)) (j - (W + H + W))) =
    if sideOf W H i = sideOf W H j ∧ (j = i + 1 ∨ i = j + 1) then 1 else 0 := by
  unfold sideOf
  by_cases k1 : j < W
  · rw [if_pos (by omega), if_pos (by omega), if_pos k1, if_pos k1]
    by_cases l1 : i < W
    · rw [if_pos l1, a4 i l1 j k1, if_pos l1]
      simp
    · rw [if_neg l1, if_neg l1, if_neg]
      ifomega
  · by_cases k2 : j < W + H
    · rw [if_pos (by omega), if_pos k2, if_neg k1, if_neg k1, if_pos k2]
      by_cases l1 : i < W
      · rw [if_pos (by omega), if_pos l1, if_pos l1, if_neg]; omega
      · by_cases l2 : i < W + H
        · rw [if_pos l2, if_neg l1, if_neg l1, if_pos l2, b4 _ (by omega) _ (by omega)]
          exact if_congr (by omega) rfl rfl
        · rw [if_neg l2, if_neg l1, if_neg l2, if_neg]; ifomega
    · by_cases k3 : j < W + H + W
      · rw [if_pos k3, if_neg k2, if_neg k1, if_neg k2, if_pos (show j < 2 * W + H by omega)]
        by_cases l1 : i < W + H
        · rw [if_pos (show i < W + H + W by omega), if_pos l1, if_neg]; ifomega
        · by_cases l2 : i < W + H + W
          · rw [if_pos l2, if_neg l1, if_neg (show ¬ i < W by omega), if_neg l1, if_pos (show i < 2 * W + H by omega),
              a4 _ (by omega) _ (by omega)]
            exact if_congr (by omega) rfl rfl
          · rw [if_neg l2, if_neg]; ifomega
      · rw [if_neg k3, if_neg k1, if_neg k2, if_neg (show ¬ j < 2 * W + H by omega)]
        by_cases l1 : i < 2 * W + H
        · rw [if_pos l1, if_neg]; ifomega
        · rw [if_neg l1, if_neg (show ¬ i < W by omega), if_neg (show ¬ i < W + H by omega), if_neg l1,
            b4 _ (by omega) _ (by omega)]
          exact if_congr (by omega) rfl rfl

set_option maxHeartbeats 1000000 in
theorem buildOuter_eq (nbh nbv nb W H : Nat) (eW : nbh * nb = W) (eH : nbv * nb = H) (hW : 1 ≤ W) (hH : 1 ≤ H) :
    ∃ R, buildBondMatrixNeelOuterLattice nbh nbv nb = .ok R ∧ R.rows = 2 * (W + H) ∧ R.cols = 2 * (W + H) ∧
      ∀ i < 2 * (W + H), ∀ j < 2 * (W + H), R.e i j =
        if sideOf W H i = sideOf W H j ∧ (j = i + 1 ∨ i = j + 1) then 1 else 0 := by
  obtain ⟨Jh, a1, a2, a3, a4⟩ := buildJ_eq W hW
  obtain ⟨Jv, b1, b2, b3, b4⟩ := buildJ_eq H hH
  have e1 : (nbh + 2 * nbv) * nb = W + 2 * H := by rw [← eW, ← eH]; ring
  have e2 : (nbh + nbv) * nb = W + H := by rw [← eW, ← eH]; ring
  have e3 : (2 * nbh + nbv) * nb = 2 * W + H := by rw [← eW, ← eH]; ring
  obtain ⟨t1, p1, p2, p3, p4⟩ := concat0_ok Jh (NdMat.zeros (W + 2 * H) W) W (W + 2 * H) W a2 rfl a3 rfl
  obtain ⟨t2, q1, q2, q3, q4⟩ := concat0_ok (NdMat.zeros W H) Jv W H H rfl b2 rfl b3
  obtain ⟨t3, r1, r2, r3, r4⟩ := concat0_ok t2 (NdMat.zeros (W + H) H) (W + H) (W + H) H q2 rfl q3 rfl
  obtain ⟨t4, s1, s2, s3, s4⟩ := concat1_ok t1 t3 (2 * (W + H)) W H (by omega) (by omega) p3 r3
  obtain ⟨t5, u1, u2, u3, u4⟩ := concat0_ok (NdMat.zeros (W + H) W) Jh (W + H) W W rfl a2 rfl a3
  obtain ⟨t6, v1, v2, v3, v4⟩ := concat0_ok t5 (NdMat.zeros H W) (W + H + W) H W u2 rfl u3 rfl
  obtain ⟨t7, w1, w2, w3, w4⟩ := concat1_ok t4 t6 (2 * (W + H)) (W + H) W s2 (by omega) s3 v3
  obtain ⟨t8, x1, x2, x3, x4⟩ := concat0_ok (NdMat.zeros (2 * W + H) H) Jv (2 * W + H) H H rfl b2 rfl b3
  obtain ⟨t9, y1, y2, y3, y4⟩ := concat1_ok t7 t8 (2 * (W + H)) (W + H + W) H w2 (by omega) w3 x3
  refine ⟨t9, ?_, y2, by omega, ?_⟩
  · unfold buildBondMatrixNeelOuterLattice
    simp only [eW, eH, e1, e2, e3]
    exact bind_ok a1 (bind_ok b1 (bind_ok p1 (bind_ok q1 (bind_ok r1 (bind_ok s1 (bind_ok u1 (bind_ok v1 (bind_ok w1
      (bind_ok x1 y1)))))))))
  · intro i hi j hj
    simp only [p4, q4, r4, s4, u4, v4, w4, x4, y4, NdMat.zeros]
    clear p4 q4 r4 s4 u4 v4 w4 x4 y4 p3 q3 r3 s3 u3 v3 w3 x3 y3 p2 q2 r2 s2 u2 v2 w2 x2 y2
      p1 q1 r1 s1 u1 v1 w1 x1 y1 t1 t2 t3 t4 t5 t6 t7 t8 t9 e1 e2 e3 a1 a2 a3 b1 b2 b3 eW eH
    exact outer_entry W H Jh.e Jv.e a4 b4 i j hi hj

theorem pos_of_mul_eq {a b W : Nat} (h : a * b = W) (hW : 1 ≤ W) : 1 ≤ a ∧ 1 ≤ b := by
  subst h
  exact ⟨Nat.pos_of_ne_zero (by rintro rfl; simp at hW), Nat.pos_of_ne_zero (by rintro rfl; simp at hW)⟩

theorem near_comm (p q : Pt) : Near p q ↔ Near q p := by unfold Near; omega

theorem nnInd_comm (pos : Nat → Pt) (i j : Nat) : nnInd pos i j = nnInd pos j i :=
  if_congr (near_comm _ _) rfl rfl

theorem neel_eq (nbh nbv nb W H : Nat) (eW : nbh * nb = W) (eH : nbv * nb = H) (hW : 1 ≤ W) (hH : 1 ≤ H) :
    ∃ m, buildBondMatrixNeelEmbedding nbh nbv nb = .ok m ∧ m.rows = W * H + 2 * (W + H) ∧
      m.cols = W * H + 2 * (W + H) ∧
      ∀ i < W * H + 2 * (W + H), ∀ j < W * H + 2 * (W + H), m.e i j = nnInd (periPos W H) i j := by
  have p1 : 1 ≤ nbh := (pos_of_mul_eq eW hW).1
  have p2 : 1 ≤ nbv := (pos_of_mul_eq eH hH).1
  have p3 : 1 ≤ nb := (pos_of_mul_eq eW hW).2
  obtain ⟨B, a1, a2, a3, a4⟩ := rect_eq nbh nbv nb p1 p2 p3
  rw [eW, eH] at a2 a3 a4
  obtain ⟨R, b1, b2, b3, b4⟩ := buildOuter_eq nbh nbv nb W H eW eH hW hH
  obtain ⟨T, c1, c2, c3, c4⟩ := buildT_eq nbh nbv nb W H eW eH hW hH
  obtain ⟨L, l1, l2, l3, l4⟩ := concat0_ok B T.transpose (W * H) (2 * (W + H)) (W * H) a2 c3 a3 c2
  obtain ⟨M, m1, m2, m3, m4⟩ := concat0_ok T R (W * H) (2 * (W + H)) (2 * (W + H)) c2 b2 c3 b3
  obtain ⟨N, n1, n2, n3, n4⟩ := concat1_ok L M _ (W * H) (2 * (W + H)) l2 m2 l3 m3
  refine ⟨N, bind_ok a1 (bind_ok b1 (bind_ok c1 (bind_ok l1 (bind_ok m1 n1)))), n2, n3, ?_⟩
  have hT : ∀ i < W * H, ∀ j, W * H ≤ j → j < W * H + 2 * (W + H) → T.e i (j - W * H) = nnInd (periPos W H) i j := by
    intro i hi j hj1 hj2
    rw [c4 i hi (j - W * H) (by omega)]
    have hi' : i / W < H := Nat.div_lt_of_lt_mul hi
    have hi2 : i % W < W := Nat.mod_lt _ hW
    unfold nnInd
    rw [if_congr near_iff rfl rfl]
    unfold periPos gridPos
    rw [if_pos hi, if_neg (show ¬ j < W * H by omega)]
    refine if_congr ?_ rfl rfl
    clear l4 m4 n4 c4 b4 a4 a1 b1 c1 l1 m1 n1 a2 a3 b2 b3 c2 c3 l2 l3 m2 m3 n2 n3 eW eH p1 p2 p3 L M N R T B
    generalize i / W = y at *
    generalize i % W = x at *
    have ht : j - W * H < 2 * (W + H) := by omega
    simp only
    generalize j - W * H = t at *
    ifomega
  have hR : ∀ i, W * H ≤ i → i < W * H + 2 * (W + H) → ∀ j, W * H ≤ j → j < W * H + 2 * (W + H) →
      R.e (i - W * H) (j - W * H) = nnInd (periPos W H) i j := by
    intro i hi1 hi2 j hj1 hj2
    rw [b4 (i - W * H) (by omega) (j - W * H) (by omega)]
    unfold nnInd
    rw [if_congr near_iff rfl rfl]
    unfold periPos sideOf
    rw [if_neg (show ¬ i < W * H by omega), if_neg (show ¬ j < W * H by omega)]
    refine if_congr ?_ rfl rfl
    clear hT l4 m4 n4 c4 b4 a4 a1 b1 c1 l1 m1 n1 a2 a3 b2 b3 c2 c3 l2 l3 m2 m3 n2 n3 eW eH p1 p2 p3 L M N R T B
    obtain ⟨s, rfl⟩ : ∃ s, i = W * H + s := ⟨i - W * H, by omega⟩
    obtain ⟨t, rfl⟩ : ∃ t, j = W * H + t := ⟨j - W * H, by omega⟩
    simp only [Nat.add_sub_cancel_left]
    have hs : s < 2 * (W + H) := by omega
    have ht : t < 2 * (W + H) := by omega
    clear hi1 hi2 hj1 hj2
    ifomega
  intro i hi j hj
  rw [n4]
  by_cases x : i < W * H
  · by_cases y : j < W * H
    · rw [if_pos y, l4, if_pos x, a4 i x j y]
      unfold nnInd periPos
      rw [if_pos x, if_pos y]
    · rw [if_neg y, m4, if_pos x]
      exact hT i x j (by omega) hj
  · by_cases y : j < W * H
    · rw [if_pos y, l4, if_neg x, nnInd_comm]
      exact hT j y i (by omega) hi
    · rw [if_neg y, m4, if_neg x]
      exact hR i (by omega) hi j (by omega) hj

theorem block_eq (nbh nbv nb W H : Nat) (eW : nbh * nb = W) (eH : nbv * nb = H) (hW : 1 ≤ W) (hH : 1 ≤ H) :
    ∃ m, buildBondMatrixBlockEmbedding nbh nbv nb = .ok m ∧ m.rows = 2 * (W * H) ∧ m.cols = 2 * (W * H) ∧
      ∀ i < 2 * (W * H), ∀ j < 2 * (W * H), m.e i j = nnInd (twoPos W H) i j := by
  have p1 : 1 ≤ nbh := (pos_of_mul_eq eW hW).1
  have p2 : 1 ≤ nbv := (pos_of_mul_eq eH hH).1
  have p3 : 1 ≤ nb := (pos_of_mul_eq eW hW).2
  obtain ⟨B, a1, a2, a3, a4⟩ := rect_eq nbh nbv nb p1 p2 p3
  rw [eW, eH] at a2 a3 a4
  have hn : nbh * nbv * nb ^ 2 = W * H := by rw [← eW, ← eH]; ring
  have e0 : ∀ a, a * nbh * nb = W * a := fun a => by rw [← eW]; ring
  obtain ⟨U, b1, b2, b3, b4⟩ := setEntry_loop (NdMat.zeros (W * H) (W * H)) (fun k => W * k) (fun k => W * (k + 1) - 1) H
    (fun k hk => by
      have e : W * (k + 1) = W * k + W := by ring
      have := Nat.mul_le_mul_left W (Nat.succ_le_of_lt hk)
      rw [Nat.succ_eq_add_one] at this
      simp only [NdMat.zeros]; constructor <;> omega)
  have hU : buildUMatrix nbh nbv nb = .ok U := by
    unfold buildUMatrix
    simp only [hn, e0, eH]
    exact b1
  simp only [NdMat.zeros] at b2 b3 b4
  obtain ⟨L, l1, l2, l3, l4⟩ := concat1_ok B U.transpose (W * H) (W * H) (W * H) a2 b3 a3 b2
  obtain ⟨M, m1, m2, m3, m4⟩ := concat1_ok U B (W * H) (W * H) (W * H) b2 a2 b3 a3
  obtain ⟨N, n1, n2, n3, n4⟩ := concat0_ok L M (W * H) (W * H) (W * H + W * H) l2 m2 l3 m3
  refine ⟨N, bind_ok a1 (bind_ok hU (bind_ok l1 (bind_ok m1 n1))), by omega, by omega, ?_⟩
  have hc : ∀ i, W * H ≤ i → i < 2 * (W * H) → ∀ j < W * H, U.e (i - W * H) j = nnInd (twoPos W H) i j := by
    intro i hi1 hi2 j hj
    rw [b4]
    unfold nnInd twoPos
    rw [if_neg (show ¬ i < W * H by omega), if_pos hj]
    refine if_congr ?_ rfl rfl
    have hk : ∀ k, (i - W * H = W * k + 0 ↔ _) := fun k => eq_iff_divmod (W := W) (x := 0) (y := k) (by omega)
    have hk2 : ∀ k, (j = W * k + (W - 1) ↔ _) := fun k => eq_iff_divmod (W := W) (x := W - 1) (y := k) (by omega)
    have e : ∀ k, W * (k + 1) - 1 = W * k + (W - 1) := fun k => by
      have : W * (k + 1) = W * k + W := by ring
      omega
    simp only [e, hk2]
    have hk' : ∀ k, (i - W * H = W * k) ↔ _ := hk
    simp only [hk']
    have hi' : (i - W * H) / W < H := Nat.div_lt_of_lt_mul (by omega)
    have hj' : j / W < H := Nat.div_lt_of_lt_mul hj
    have hi3 : (i - W * H) % W < W := Nat.mod_lt _ hW
    have hj3 : j % W < W := Nat.mod_lt _ hW
    unfold Near gridPos
    generalize (i - W * H) / W = y at *
    generalize (i - W * H) % W = x at *
    generalize j / W = y' at *
    generalize j % W = x' at *
    simp only
    constructor
    · rintro ⟨k, hk, h1, h2⟩; omega
    · intro h; exact ⟨y, hi', by omega, by omega⟩
  intro i hi j hj
  rw [n4]
  by_cases x : i < W * H
  · rw [if_pos x, l4]
    by_cases y : j < W * H
    · rw [if_pos y, a4 i x j y]
      unfold nnInd twoPos
      rw [if_pos x, if_pos y]
    · rw [if_neg y, nnInd_comm]
      exact hc j (by omega) hj i x
  · rw [if_neg x, m4]
    by_cases y : j < W * H
    · rw [if_pos y]
      exact hc i (by omega) hi j y
    · rw [if_neg y, a4 _ (by omega) _ (by omega)]
      unfold nnInd twoPos Near
      rw [if_neg x, if_neg y]
      refine if_congr ?_ rfl rfl
      simp only
      omega

/-! ### Bond list -/

theorem mem_bondGo (S : SetSem) (bond : NdMat) (r0 r1 : List Nat) (i j : Nat) :
    (i, j) ∈ (S.inter (List.range bond.rows) r0).flatMap (fun i =>
      (S.inter (List.range' i (bond.rows - i)) r1).filterMap (fun j =>
        if bond.e i j = 1 then some (i, j) else none)) ↔
      (i ∈ r0 ∧ j ∈ r1 ∧ i ≤ j ∧ j < bond.rows ∧ bond.e i j = 1) := by
  simp only [List.mem_flatMap, List.mem_filterMap, S.mem_inter, List.mem_range, List.mem_range'_1,
    Option.ite_none_right_eq_some, Option.some.injEq, Prod.mk.injEq]
  constructor
  · rintro ⟨a, ⟨h1, h2⟩, b, ⟨h3, h4⟩, h5, rfl, rfl⟩
    exact ⟨h2, h4, h3.1, by omega, h5⟩
  · rintro ⟨h1, h2, h3, h4, h5⟩
    exact ⟨i, ⟨by omega, h1⟩, j, ⟨⟨h3, by omega⟩, h2⟩, h5, rfl, rfl⟩

theorem nodup_bondGo (S : SetSem) (bond : NdMat) (r0 r1 : List Nat) :
    ((S.inter (List.range bond.rows) r0).flatMap (fun i =>
      (S.inter (List.range' i (bond.rows - i)) r1).filterMap (fun j =>
        if bond.e i j = 1 then some (i, j) else none))).Nodup := by
  rw [List.nodup_flatMap]
  constructor
  · intro i _
    refine (S.nodup_inter _ _).filterMap ?_
    intro a b c ha hb
    simp only [Option.mem_def, Option.ite_none_right_eq_some, Option.some.injEq] at ha hb
    have := ha.2.trans hb.2.symm
    simpa using this
  · refine (S.nodup_inter _ _).imp ?_
    intro a b hab
    simp only [Function.onFun]
    intro x hx hx'
    simp only [List.mem_filterMap, Option.ite_none_right_eq_some, Option.some.injEq] at hx hx'
    obtain ⟨_, _, _, rfl⟩ := hx
    obtain ⟨_, _, _, h⟩ := hx'
    simp only [Prod.mk.injEq] at h
    exact hab h.1.symm

/-! ### Neighbours -/

theorem getNeighbors_spec (S : SetSem) (bond : NdMat) (r : RestrArg) (a : Nat) (ha : a < bond.rows) :
    ∃ l, getNeighbors S a bond r = .ok l ∧ l.Nodup ∧
      ∀ s, s ∈ l ↔ (s < bond.rows ∧ allowed bond.rows r s ∧ bond.e a s = 1) := by
  unfold getNeighbors
  rw [if_pos ha]
  refine ⟨_, rfl, (S.nodup_inter _ _).filter _, ?_⟩
  intro s
  rw [List.mem_filter, S.mem_inter, List.mem_range]
  rcases r with l | ⟨x, y⟩
  · cases l with
    | nil => simp [allowed]
    | cons x l => simp [allowed, and_assoc]
  · simp [allowed, and_assoc]

theorem mapM_ok_exists {α β : Type} {f : α → Py β} {P : α → β → Prop} :
    ∀ (l : List α), (∀ a ∈ l, ∃ b, f a = .ok b ∧ P a b) → ∃ l', l.mapM f = .ok l' ∧ List.Forall₂ P l l'
  | [], _ => ⟨[], rfl, .nil⟩
  | a :: l, h => by
    obtain ⟨b, h1, h2⟩ := h a (by simp)
    obtain ⟨l', h3, h4⟩ := mapM_ok_exists l (fun a ha => h a (List.mem_cons_of_mem _ ha))
    refine ⟨b :: l', ?_, .cons h2 h4⟩
    rw [List.mapM_cons, h1, h3]
    rfl

/-- A loop that only adds elements to a list. -/
theorem foldlM_mem {α : Type} {f : List Nat → α → Py (List Nat)} {P : α → Nat → Prop} :
    ∀ (l : List α) (d : List Nat), (∀ a ∈ l, ∀ d, ∃ d', f d a = .ok d' ∧ ∀ x, x ∈ d' ↔ (x ∈ d ∨ P a x)) →
      ∃ d', l.foldlM f d = .ok d' ∧ ∀ x, x ∈ d' ↔ (x ∈ d ∨ ∃ a ∈ l, P a x)
  | [], d, _ => ⟨d, rfl, by simp⟩
  | a :: l, d, h => by
    obtain ⟨d1, h1, h2⟩ := h a (by simp) d
    obtain ⟨d2, h3, h4⟩ := foldlM_mem l d1 (fun b hb => h b (List.mem_cons_of_mem _ hb))
    refine ⟨d2, ?_, ?_⟩
    · rw [List.foldlM_cons]; exact bind_ok h1 h3
    · intro x
      rw [h4, h2]
      simp [or_assoc]

end TJ
