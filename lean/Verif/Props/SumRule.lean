/-
Property C122: the mean of the energies of a sector and the spread produced by the hopping.
-/
import Verif.Lemmas.SumRule
import Verif.Props.FreeHole
import Verif.Props.Couplings
import Verif.Props.HoppingSign
import Verif.Props.LiebMattis
import Mathlib.LinearAlgebra.Matrix.Gershgorin

namespace TJ

open Finset Matrix

/-! ### Numbers of bonds and diagonals -/

theorem sum_path (W : Nat) : ∑ x ∈ range W, ∑ y ∈ range W, pathEl x y = 2 * ((W - 1 : Nat) : ℝ) := by
  rcases W with _ | W
  · simp
  induction W with
  | zero => simp [pathEl]
  | succ W ih =>
    rw [sum_range_succ]
    have e : ∑ x ∈ range (W + 1), ∑ y ∈ range (W + 1 + 1), pathEl x y =
        (∑ x ∈ range (W + 1), ∑ y ∈ range (W + 1), pathEl x y) + ∑ x ∈ range (W + 1), pathEl x (W + 1) := by
      rw [← sum_add_distrib]
      exact sum_congr rfl fun x _ => sum_range_succ _ _
    have p1 : ∀ x ∈ range (W + 1), pathEl x (W + 1) = if x = W then 1 else 0 := by
      intro x hx
      rw [mem_range] at hx
      unfold pathEl
      split_ifs <;> first | rfl | (exfalso; omega)
    have p2 : ∀ y ∈ range (W + 1 + 1), pathEl (W + 1) y = if y = W then 1 else 0 := by
      intro x hx
      rw [mem_range] at hx
      unfold pathEl
      split_ifs <;> first | rfl | (exfalso; omega)
    rw [e, ih, sum_congr rfl p1, sum_congr rfl p2, sum_ite_eq', sum_ite_eq', if_pos (by simp), if_pos (by simp)]
    have h1 : W + 1 - 1 = W := rfl
    have h2 : W + 1 + 1 - 1 = W + 1 := rfl
    rw [h1, h2]
    push_cast
    ring

theorem half_sum {n : Nat} (P : Fin n → Fin n → Prop) [∀ a b, Decidable (P a b)] (hs : ∀ a b, P a b → P b a) (hd : ∀ a, ¬ P a a) :
    ∑ a, ∑ b, (if P a b then (1 : ℝ) else 0) = 2 * ((univ.filter fun p : Fin n × Fin n => p.1 < p.2 ∧ P p.1 p.2).card : ℝ) := by
  have h1 : ∀ a b, (if P a b then (1 : ℝ) else 0) = (if a < b ∧ P a b then 1 else 0) + (if b < a ∧ P b a then 1 else 0) := by
    intro a b
    have hab : P a b ↔ P b a := ⟨hs a b, hs b a⟩
    rcases lt_trichotomy a b with h | h | h
    · simp [h, not_lt_of_gt h]
    · subst h; simp [hd a]
    · simp [h, not_lt_of_gt h, hab]
  have h2 : ∑ a, ∑ b, (if a < b ∧ P a b then (1 : ℝ) else 0) = ((univ.filter fun p : Fin n × Fin n => p.1 < p.2 ∧ P p.1 p.2).card : ℝ) := by
    rw [card_filter, ← Fintype.sum_prod_type' (f := fun a b => if a < b ∧ P a b then (1 : ℝ) else 0)]
    push_cast
    rfl
  simp only [h1, sum_add_distrib]
  rw [sum_comm (f := fun a b : Fin n => if b < a ∧ P b a then (1 : ℝ) else 0), h2]
  ring

theorem sum_fin_grid {n W H : Nat} (hW : 0 < W) (hn : n = W * H) (f : Nat → Nat → Nat → Nat → ℝ) :
    ∑ a : Fin n, ∑ b : Fin n, f (a % W) (a / W) (b % W) (b / W) =
      ∑ x ∈ range W, ∑ y ∈ range H, ∑ x' ∈ range W, ∑ y' ∈ range H, f x y x' y' := by
  rw [← sum_range (fun a => ∑ b : Fin n, f (a % W) (a / W) (b % W) (b / W)), hn,
    sum_grid W H hW (fun x y => ∑ b : Fin (W * H), f x y (b % W) (b / W))]
  refine sum_congr rfl fun x _ => sum_congr rfl fun y _ => ?_
  rw [← sum_range (fun b => f x y (b % W) (b / W)), sum_grid W H hW (fun x' y' => f x y x' y')]

/-- A `W x H` rectangle has `W (H - 1) + H (W - 1)` bonds. -/
theorem card_nearPairs {n W H : Nat} (hW : 0 < W) (hn : n = W * H) :
    (nearPairs fun s : Fin n => gridPos W s).card = W * (H - 1) + H * (W - 1) := by
  have h := half_sum (fun a b : Fin n => Near (gridPos W a) (gridPos W b)) (fun a b => near_symm.1)
    (fun a h => near_ne (fun s : Fin n => gridPos W s) h rfl)
  have e : ∀ a b : Fin n, (if Near (gridPos W a) (gridPos W b) then (1 : ℝ) else 0) =
      pathEl (a % W) (b % W) * (if a.1 / W = b / W then 1 else 0) + (if a.1 % W = b % W then 1 else 0) * pathEl (a / W) (b / W) := by
    intro a b
    have := near_plane 1 W a b
    rw [one_mul] at this
    exact this
  simp only [e] at h
  rw [sum_fin_grid hW hn (fun x y x' y' => pathEl x x' * (if y = y' then 1 else 0) + (if x = x' then 1 else 0) * pathEl y y')] at h
  have s1 : ∀ x ∈ range W, ∑ y ∈ range H, ∑ x' ∈ range W, ∑ y' ∈ range H,
      (pathEl x x' * (if y = y' then 1 else 0) + (if x = x' then 1 else 0) * pathEl y y') =
      (H : ℝ) * ∑ x' ∈ range W, pathEl x x' + 2 * ((H - 1 : Nat) : ℝ) := by
    intro x hx
    have i1 : ∀ y ∈ range H, ∑ x' ∈ range W, ∑ y' ∈ range H,
        (pathEl x x' * (if y = y' then 1 else 0) + (if x = x' then 1 else 0) * pathEl y y') =
        ∑ x' ∈ range W, pathEl x x' + ∑ y' ∈ range H, pathEl y y' := by
      intro y hy
      have i2 : ∀ x' ∈ range W, ∑ y' ∈ range H, (pathEl x x' * (if y = y' then 1 else 0) + (if x = x' then 1 else 0) * pathEl y y') =
          pathEl x x' + if x = x' then ∑ y' ∈ range H, pathEl y y' else 0 := by
        intro x' _
        rw [sum_add_distrib, ← mul_sum, ← mul_sum, sum_ite_eq, if_pos hy, mul_one]
        split_ifs <;> ring
      rw [sum_congr rfl i2, sum_add_distrib, sum_ite_eq, if_pos hx]
    rw [sum_congr rfl i1, sum_add_distrib, sum_path, sum_const, card_range, nsmul_eq_mul]
  rw [sum_congr rfl s1, sum_add_distrib, ← mul_sum, sum_path, sum_const, card_range, nsmul_eq_mul] at h
  have : (((nearPairs fun s : Fin n => gridPos W s).card : Nat) : ℝ) = ((W * (H - 1) + H * (W - 1) : Nat) : ℝ) := by
    push_cast
    unfold nearPairs
    linarith
  exact_mod_cast this

/-- A `W x H` rectangle has `2 (W - 1) (H - 1)` diagonals of plaquettes. -/
theorem card_diagonalPairs {n W H : Nat} (hW : 0 < W) (hn : n = W * H) :
    (diagonalPairs fun s : Fin n => gridPos W s).card = 2 * ((W - 1) * (H - 1)) := by
  have h := half_sum (fun a b : Fin n => Diagonal (gridPos W a) (gridPos W b))
    (fun a b h => by unfold Diagonal at h ⊢; omega) (fun a h => by unfold Diagonal at h; omega)
  have e : ∀ a b : Fin n, (if Diagonal (gridPos W a) (gridPos W b) then (1 : ℝ) else 0) = pathEl (a % W) (b % W) * pathEl (a / W) (b / W) := by
    intro a b
    have hN : Diagonal (gridPos W a) (gridPos W b) ↔ (a.1 % W + 1 = b % W ∨ b.1 % W + 1 = a % W) ∧ (a.1 / W + 1 = b / W ∨ b.1 / W + 1 = a / W) := by
      unfold Diagonal gridPos
      simp only
      omega
    simp only [hN]
    unfold pathEl
    split_ifs <;> first | ring1 | (exfalso; tauto)
  simp only [e] at h
  rw [sum_fin_grid hW hn (fun x y x' y' => pathEl x x' * pathEl y y')] at h
  have s1 : ∀ x ∈ range W, ∑ y ∈ range H, ∑ x' ∈ range W, ∑ y' ∈ range H, pathEl x x' * pathEl y y' =
      2 * ((H - 1 : Nat) : ℝ) * ∑ x' ∈ range W, pathEl x x' := by
    intro x _
    rw [mul_comm, sum_mul, sum_comm]
    refine sum_congr rfl fun x' _ => ?_
    rw [← sum_path, mul_sum]
    exact sum_congr rfl fun y _ => (mul_sum _ _ _).symm
  rw [sum_congr rfl s1, ← mul_sum, sum_path] at h
  have : (((diagonalPairs fun s : Fin n => gridPos W s).card : Nat) : ℝ) = ((2 * ((W - 1) * (H - 1)) : Nat) : ℝ) := by
    push_cast
    unfold diagonalPairs
    linarith
  exact_mod_cast this

/-! ### The trace -/

section
variable {n : Nat} (I : Interactions ℝ) (pos : Fin n → Pt)

theorem sum_static (h b : Nat) (hJ : ∀ σ ∈ sectorConfs n h b, ∀ s t, Jeff I pos σ s t = I.J) :
    ((n * (n - 1) : Nat) : ℝ) * ∑ σ ∈ sectorConfs n h b, staticEl I pos σ σ =
      ((sectorConfs n h b).card : ℝ) * (-(I.J * (nearPairs pos).card * ((b * (n - h - b) : Nat) : ℝ))) := by
  have e1 : ∀ σ ∈ sectorConfs n h b, staticEl I pos σ σ =
      ∑ p ∈ nearPairs pos, if σ p.1 ≠ .hole ∧ σ p.2 ≠ .hole ∧ σ p.1 ≠ σ p.2 then -(I.J / 2) else 0 := by
    intro σ hσ
    unfold staticEl nearPairs
    rw [if_pos rfl, sum_filter, ← Fintype.sum_prod_type'
      (f := fun a b => if a < b ∧ Near (pos a) (pos b) ∧ σ a ≠ .hole ∧ σ b ≠ .hole then Jeff I pos σ a b * ((σ a).val * (σ b).val - 1 / 4) else 0)]
    refine sum_congr rfl fun p _ => ?_
    rw [hJ σ hσ p.1 p.2]
    by_cases hp : p.1 < p.2 ∧ Near (pos p.1) (pos p.2)
    · rw [if_pos hp]
      cases h1 : σ p.1 <;> cases h2 : σ p.2 <;> simp [hp.1, hp.2, Occ.val] <;> first | ring1 | (right; ring)
    · rw [if_neg hp, if_neg (fun h => hp ⟨h.1, h.2.1⟩)]
  rw [sum_congr rfl e1, sum_comm, mul_sum]
  have e2 : ∀ p ∈ nearPairs pos, ((n * (n - 1) : Nat) : ℝ) *
      ∑ σ ∈ sectorConfs n h b, (if σ p.1 ≠ .hole ∧ σ p.2 ≠ .hole ∧ σ p.1 ≠ σ p.2 then -(I.J / 2) else 0) =
      ((sectorConfs n h b).card : ℝ) * (-(I.J * ((b * (n - h - b) : Nat) : ℝ))) := by
    intro p hp
    have hc := opposite_count n h b (ne_of_lt (mem_filter.1 hp).2.1)
    have hc' : ((n * (n - 1) : Nat) : ℝ) * (((sectorConfs n h b).filter fun σ => σ p.1 ≠ .hole ∧ σ p.2 ≠ .hole ∧ σ p.1 ≠ σ p.2).card : ℝ) =
        ((sectorConfs n h b).card : ℝ) * (2 * ((b * (n - h - b) : Nat) : ℝ)) := by exact_mod_cast hc
    rw [← sum_filter, sum_const, nsmul_eq_mul]
    linear_combination (-(I.J / 2)) * hc'
  rw [sum_congr rfl e2, sum_const, nsmul_eq_mul]
  ring

theorem sum_repulsion (h b : Nat) :
    ((n * (n - 1) : Nat) : ℝ) * ∑ σ ∈ sectorConfs n h b, repEl I pos σ σ =
      ((sectorConfs n h b).card : ℝ) * ((I.VNN * (nearPairs pos).card + I.VNNNper * (diagonalPairs pos).card) * ((h * (h - 1) : Nat) : ℝ)) := by
  have e1 : ∀ σ : Conf n, repEl I pos σ σ =
      (∑ p ∈ nearPairs pos, if σ p.1 = .hole ∧ σ p.2 = .hole then I.VNN else 0) +
      ∑ p ∈ diagonalPairs pos, if σ p.1 = .hole ∧ σ p.2 = .hole then I.VNNNper else 0 := by
    intro σ
    unfold repEl nearPairs diagonalPairs
    rw [if_pos rfl, sum_filter, sum_filter, ← sum_add_distrib, ← Fintype.sum_prod_type'
      (f := fun a b => if a < b ∧ σ a = .hole ∧ σ b = .hole then
        (if Near (pos a) (pos b) then I.VNN else 0) + (if Diagonal (pos a) (pos b) then I.VNNNper else 0) else 0)]
    refine sum_congr rfl fun p _ => ?_
    by_cases h1 : p.1 < p.2 <;> by_cases h2 : Near (pos p.1) (pos p.2) <;> by_cases h3 : Diagonal (pos p.1) (pos p.2) <;>
      by_cases h4 : σ p.1 = .hole ∧ σ p.2 = .hole <;> simp [h1, h2, h3, h4]
  have e2 : ∀ (V : ℝ) (p : Fin n × Fin n), p.1 < p.2 → ((n * (n - 1) : Nat) : ℝ) *
      ∑ σ ∈ sectorConfs n h b, (if σ p.1 = .hole ∧ σ p.2 = .hole then V else 0) =
      ((sectorConfs n h b).card : ℝ) * (V * ((h * (h - 1) : Nat) : ℝ)) := by
    intro V p hp
    have hc := holes_count n h b (ne_of_lt hp)
    have hc' : ((n * (n - 1) : Nat) : ℝ) * (((sectorConfs n h b).filter fun σ => σ p.1 = .hole ∧ σ p.2 = .hole).card : ℝ) =
        ((sectorConfs n h b).card : ℝ) * ((h * (h - 1) : Nat) : ℝ) := by exact_mod_cast hc
    rw [← sum_filter, sum_const, nsmul_eq_mul]
    linear_combination V * hc'
  simp only [e1]
  rw [sum_add_distrib, sum_comm, sum_comm (t := diagonalPairs pos), mul_add, mul_sum, mul_sum,
    sum_congr rfl (fun p hp => e2 I.VNN p (mem_filter.1 hp).2.1), sum_congr rfl (fun p hp => e2 I.VNNNper p (mem_filter.1 hp).2.1),
    sum_const, sum_const, nsmul_eq_mul, nsmul_eq_mul]
  ring

theorem hamEl_diag_split (B : BoolInteractions) (σ : Conf n) :
    hamEl I pos B σ σ = (if B.bz then staticEl I pos σ σ else 0) + (if B.bV then repEl I pos σ σ else 0) := by
  unfold hamEl
  rw [hopEl_diag, flipEl_diag, sdEl_diag, nextEl_diag]
  simp

/-- Each pair of a hole and a neighbouring electron gives one hopping element. -/
theorem sum_hop_sq (σ : Conf n) : ∑ τ, hopEl I pos σ τ ^ 2 =
    I.t ^ 2 * ((univ.filter fun p : Fin n × Fin n => Near (pos p.1) (pos p.2) ∧ σ p.1 = .hole ∧ σ p.2 ≠ .hole).card : ℝ) := by
  set A : Finset (Fin n × Fin n) := univ.filter fun p : Fin n × Fin n => Near (pos p.1) (pos p.2) ∧ σ p.1 = .hole ∧ σ p.2 ≠ .hole with hA
  have e1 : ∀ τ, hopEl I pos σ τ = ∑ p ∈ A, if τ = exch σ p.1 p.2 then I.t else 0 := by
    intro τ
    unfold hopEl
    rw [hA, sum_filter, ← Fintype.sum_prod_type'
      (f := fun a b => if σ a = .hole ∧ σ b ≠ .hole ∧ Near (pos a) (pos b) ∧ τ = exch σ a b then I.t else 0)]
    refine sum_congr rfl fun p _ => ?_
    by_cases h1 : σ p.1 = .hole <;> by_cases h2 : σ p.2 = .hole <;> by_cases h3 : Near (pos p.1) (pos p.2) <;> simp [h1, h2, h3]
  have inj : ∀ p ∈ A, ∀ q ∈ A, exch σ p.1 p.2 = exch σ q.1 q.2 → p = q := by
    intro p hp q hq h
    rw [hA, mem_filter] at hp hq
    obtain ⟨_, _, p1, p2⟩ := hp
    obtain ⟨_, _, q1, q2⟩ := hq
    have f1 : exch σ q.1 q.2 p.1 ≠ .hole := by
      rw [← h]
      unfold exch
      rw [Equiv.swap_apply_left]
      exact p2
    have f2 : exch σ q.1 q.2 p.2 = .hole := by
      rw [← h]
      unfold exch
      rw [Equiv.swap_apply_right]
      exact p1
    have g1 : p.1 = q.1 := by
      by_contra hne
      by_cases h2 : p.1 = q.2
      · rw [h2] at p1
        exact q2 p1
      · unfold exch at f1
        rw [Equiv.swap_apply_of_ne_of_ne hne h2] at f1
        exact f1 p1
    have g2 : p.2 = q.2 := by
      by_contra hne
      by_cases h2 : p.2 = q.1
      · rw [h2] at p2
        exact p2 q1
      · unfold exch at f2
        rw [Equiv.swap_apply_of_ne_of_ne h2 hne] at f2
        exact p2 f2
    exact Prod.ext g1 g2
  have e2 : ∀ τ, hopEl I pos σ τ ^ 2 = ∑ p ∈ A, if τ = exch σ p.1 p.2 then I.t ^ 2 else 0 := by
    intro τ
    rw [e1]
    by_cases hex : ∃ p ∈ A, τ = exch σ p.1 p.2
    · obtain ⟨p, hp, hτ⟩ := hex
      rw [sum_eq_single_of_mem p hp, sum_eq_single_of_mem p hp, if_pos hτ, if_pos hτ]
      · intro q hq hne
        exact if_neg fun h => hne (inj q hq p hp (h.symm.trans hτ))
      · intro q hq hne
        exact if_neg fun h => hne (inj q hq p hp (h.symm.trans hτ))
    · have : ∀ p ∈ A, ¬ τ = exch σ p.1 p.2 := fun p hp h => hex ⟨p, hp, h⟩
      rw [sum_eq_zero (fun p hp => if_neg (this p hp)), sum_eq_zero (fun p hp => if_neg (this p hp))]
      ring
  simp only [e2]
  rw [sum_comm]
  simp only [sum_ite_eq', mem_univ, if_true, sum_const, nsmul_eq_mul]
  ring

theorem sum_hop (h b : Nat) :
    ((n * (n - 1) : Nat) : ℝ) * ∑ σ ∈ sectorConfs n h b, ∑ τ, hopEl I pos σ τ ^ 2 =
      ((sectorConfs n h b).card : ℝ) * (I.t ^ 2 * (2 * (nearPairs pos).card) * ((h * (n - h) : Nat) : ℝ)) := by
  simp only [sum_hop_sq]
  have e0 : ∀ σ : Conf n, ((univ.filter fun p : Fin n × Fin n => Near (pos p.1) (pos p.2) ∧ σ p.1 = .hole ∧ σ p.2 ≠ .hole).card : ℝ) =
      ∑ p ∈ univ.filter (fun p : Fin n × Fin n => Near (pos p.1) (pos p.2)), if σ p.1 = .hole ∧ σ p.2 ≠ .hole then (1 : ℝ) else 0 := by
    intro σ
    rw [← filter_filter, card_filter]
    push_cast
    rfl
  simp only [e0]
  rw [← mul_sum, sum_comm]
  have e2 : ∀ p ∈ univ.filter (fun p : Fin n × Fin n => Near (pos p.1) (pos p.2)), ((n * (n - 1) : Nat) : ℝ) *
      ∑ σ ∈ sectorConfs n h b, (if σ p.1 = .hole ∧ σ p.2 ≠ .hole then (1 : ℝ) else 0) =
      ((sectorConfs n h b).card : ℝ) * ((h * (n - h) : Nat) : ℝ) := by
    intro p hp
    have hc := hop_count n h b (near_ne pos (mem_filter.1 hp).2)
    rw [← sum_filter, sum_const, nsmul_eq_mul, mul_one]
    exact_mod_cast hc
  have hb := half_sum (fun a b : Fin n => Near (pos a) (pos b)) (fun a b => near_symm.1) (fun a h => near_ne pos h rfl)
  have hb' : ((univ.filter fun p : Fin n × Fin n => Near (pos p.1) (pos p.2)).card : ℝ) = 2 * (nearPairs pos).card := by
    unfold nearPairs
    rw [← hb, card_filter, ← Fintype.sum_prod_type' (f := fun a b => if Near (pos a) (pos b) then (1 : ℝ) else 0)]
    push_cast
    rfl
  rw [mul_left_comm, mul_sum, sum_congr rfl e2, sum_const, nsmul_eq_mul, hb']
  ring

end

/-! ### Eigenvalues -/

section
variable {d : Nat} {M : Matrix (Fin d) (Fin d) ℝ} {e : Fin d → ℝ} {w : Fin d → Fin d → ℝ}

theorem sum_expectation (N : Matrix (Fin d) (Fin d) ℝ) (hwo : ∀ i j, w i ⬝ᵥ w j = if i = j then 1 else 0) :
    ∑ k, w k ⬝ᵥ (N *ᵥ w k) = N.trace := by
  have h1 : Matrix.of w * (Matrix.of w)ᵀ = 1 := by
    ext i j
    rw [Matrix.one_apply, ← hwo i j]
    rfl
  have h2 := mul_eq_one_comm.1 h1
  have e : ∑ k, w k ⬝ᵥ (N *ᵥ w k) = (Matrix.of w * (N * (Matrix.of w)ᵀ)).trace := by
    unfold Matrix.trace
    rfl
  rw [e, Matrix.trace_mul_comm, Matrix.mul_assoc, h2, Matrix.mul_one]

theorem sum_energies (hw : ∀ k, M *ᵥ w k = e k • w k) (hwo : ∀ i j, w i ⬝ᵥ w j = if i = j then 1 else 0) :
    ∑ k, e k = ∑ i, M i i := by
  have := sum_expectation M hwo
  rw [Matrix.trace] at this
  rw [← show ∑ k, w k ⬝ᵥ (M *ᵥ w k) = ∑ i, M i i from this]
  refine sum_congr rfl fun k _ => ?_
  rw [hw, dotProduct_smul, hwo, if_pos rfl, smul_eq_mul, mul_one]

theorem sum_squares (hM : M.IsSymm) (hw : ∀ k, M *ᵥ w k = e k • w k) (hwo : ∀ i j, w i ⬝ᵥ w j = if i = j then 1 else 0) :
    ∑ k, e k ^ 2 = ∑ i, ∑ j, M i j ^ 2 := by
  have := sum_expectation (M * M) hwo
  have h2 : (M * M).trace = ∑ i, ∑ j, M i j ^ 2 := by
    unfold Matrix.trace
    refine sum_congr rfl fun i _ => ?_
    rw [diag_apply, mul_apply]
    refine sum_congr rfl fun j _ => ?_
    rw [hM.apply i j, sq]
  rw [← h2, ← this]
  refine sum_congr rfl fun k _ => ?_
  rw [← mulVec_mulVec, hw, mulVec_smul, hw, dotProduct_smul, dotProduct_smul, hwo, if_pos rfl, smul_eq_mul, smul_eq_mul, mul_one, sq]

theorem hasEigenvalue_of_basis (hw : ∀ k, M *ᵥ w k = e k • w k) (hwo : ∀ i j, w i ⬝ᵥ w j = if i = j then 1 else 0) (k : Fin d) :
    Module.End.HasEigenvalue (Matrix.toLin' M) (e k) := by
  refine Module.End.hasEigenvalue_of_hasEigenvector (x := w k) ⟨?_, ?_⟩
  · rw [Module.End.mem_eigenspace_iff, Matrix.toLin'_apply]
    exact hw k
  · intro h0
    have := hwo k k
    rw [h0, zero_dotProduct, if_pos rfl] at this
    exact zero_ne_one this

end

/-! ### C122 -/

section
variable {c : Config} {nbh nbv nb : Nat}

/-- Number of bonds of a `W x H` rectangle. -/
def rectBonds (W H : Nat) : Nat := W * (H - 1) + H * (W - 1)

/-- Number of diagonals of the plaquettes of a `W x H` rectangle. -/
def rectDiagonals (W H : Nat) : Nat := 2 * ((W - 1) * (H - 1))

/-- The spin coupling does not depend on the holes: there is none, or the three couplings are equal. -/
def PlainExchange (I : Interactions ℝ) (h : Nat) : Prop := h = 0 ∨ (I.Jhpar = I.J ∧ I.Jhper = I.J)

theorem PlainExchange.jeff {I : Interactions ℝ} {n h b : Nat} (hp : PlainExchange I h) (pos : Fin n → Pt) :
    ∀ σ ∈ sectorConfs n h b, ∀ s t, Jeff I pos σ s t = I.J := by
  intro σ hσ s t
  unfold Jeff
  rcases hp with rfl | hp
  · unfold sectorConfs at hσ
    have h0 := (mem_filter.1 hσ).2.1
    unfold Conf.count at h0
    rw [card_eq_zero, filter_eq_empty_iff] at h0
    rw [if_neg (by rintro ⟨x, hx, _⟩; exact h0 (mem_univ x) hx), if_neg (by rintro ⟨x, hx, _⟩; exact h0 (mem_univ x) hx)]
  · rw [hp.1, hp.2]
    split_ifs <;> rfl

/-- C122. The sum of all energies of a sector with `n` sites, `h` holes, `b` down and `a` up spins: `n (n - 1)` times the mean energy is
`- J · bonds · a b + (VNN · bonds + VNNNper · diagonals) · h (h - 1)`, each part only if its term is switched on. Hopping, spin flips and
singlet displacement do not change it. -/
theorem C122_mean (E : Env) (hc : RectConf c nbh nbv nb) (hf : c.Full) (hn : c.nholes + c.nbeta ≤ c.nsites) (I : Interactions ℝ)
    (B : BoolInteractions) (hJ : B.bz = true → PlainExchange I c.nholes) (r : List Nat) (v : Bool) (dets : List (List Nat))
    (hb : constructBasis c = .ok dets) (H : SpMat ℝ) (hH : buildHamiltonian E c I dets B r v = .ok H)
    (e : Fin H.dim → ℝ) (w : Fin H.dim → Fin H.dim → ℝ) (hw : ∀ k, H.toMatrix *ᵥ w k = e k • w k)
    (hwo : ∀ i j, w i ⬝ᵥ w j = if i = j then 1 else 0) :
    (c.nsites : ℝ) * (c.nsites - 1) * ∑ k, e k = (H.dim : ℝ) *
      ((if B.bz then - I.J * rectBonds (nbh * nb) (nbv * nb) * (c.nbeta * ((c.nsites : ℝ) - c.nholes - c.nbeta)) else 0) +
       (if B.bV then (I.VNN * rectBonds (nbh * nb) (nbv * nb) + I.VNNNper * rectDiagonals (nbh * nb) (nbv * nb)) *
          (c.nholes * ((c.nholes : ℝ) - 1)) else 0)) := by
  have hW : 0 < nbh * nb := Nat.mul_pos hc.hh hc.hb
  have hHt : 0 < nbv * nb := Nat.mul_pos hc.hv hc.hb
  have hns := hc.spec.1
  have hpos : 1 ≤ c.nsites := by rw [hns]; exact Nat.mul_pos hW hHt
  obtain ⟨H', h1, h2, _, _⟩ := buildHamiltonian_spec I (hc.tj E) hf hn hb B r v
  obtain rfl := Except.ok.inj (hH.symm.trans h1)
  have hel := C31_matrix_elements E c nbh nbv nb hc hf hn I B r v dets hb H hH
  have ht : ∑ i, H.toMatrix i i = ∑ σ ∈ sectorConfs c.nsites c.nholes c.nbeta, hamEl I (fun s => gridPos (nbh * nb) s) B σ σ := by
    rw [← sum_basis hn hb]
    have : ∑ i : Fin H.dim, H.toMatrix i i = ∑ i : Fin H.dim, H.entry i i := rfl
    rw [this, ← sum_range (fun i => H.entry i i), h2, sum_range]
    exact sum_congr rfl fun i _ => hel i i i.2 i.2
  rw [sum_energies hw hwo, ht, h2, ← card_sectorConfs hn hb]
  simp only [hamEl_diag_split]
  rw [sum_add_distrib, mul_add, mul_add]
  have hcast : (c.nsites : ℝ) * (c.nsites - 1) = ((c.nsites * (c.nsites - 1) : Nat) : ℝ) := by
    push_cast [Nat.cast_sub hpos]
    ring
  rw [hcast]
  congr 1
  · cases hz : B.bz
    · simp
    · simp only [if_true]
      rw [sum_static I _ _ _ ((hJ hz).jeff _), card_nearPairs hW hns]
      have : ((c.nbeta * (c.nsites - c.nholes - c.nbeta) : Nat) : ℝ) = c.nbeta * ((c.nsites : ℝ) - c.nholes - c.nbeta) := by
        rw [Nat.cast_mul, Nat.cast_sub (by omega), Nat.cast_sub (by omega)]
      rw [this]
      unfold rectBonds
      ring
  · cases hz : B.bV
    · simp
    · simp only [if_true]
      rw [sum_repulsion, card_nearPairs hW hns, card_diagonalPairs hW hns]
      have : ((c.nholes * (c.nholes - 1) : Nat) : ℝ) = c.nholes * ((c.nholes : ℝ) - 1) := by
        rcases c.nholes with _ | k
        · simp
        · push_cast
          simp
      rw [this]
      unfold rectBonds rectDiagonals
      ring

/-- C122. The lowest energy is at most, and the highest at least, the mean energy. -/
theorem C122_lowest (E : Env) (hc : RectConf c nbh nbv nb) (hf : c.Full) (hn : c.nholes + c.nbeta ≤ c.nsites) (h2 : 2 ≤ c.nsites)
    (I : Interactions ℝ) (B : BoolInteractions) (hJ : B.bz = true → PlainExchange I c.nholes) (r : List Nat) (v : Bool) (dets : List (List Nat))
    (hb : constructBasis c = .ok dets) (H : SpMat ℝ) (hH : buildHamiltonian E c I dets B r v = .ok H) (e0 e1 : ℝ)
    (h0 : IsLeast {μ | Module.End.HasEigenvalue (Matrix.toLin' H.toMatrix) μ} e0)
    (h1 : IsGreatest {μ | Module.End.HasEigenvalue (Matrix.toLin' H.toMatrix) μ} e1) :
    let mean := ((if B.bz then - I.J * rectBonds (nbh * nb) (nbv * nb) * (c.nbeta * ((c.nsites : ℝ) - c.nholes - c.nbeta)) else 0) +
       (if B.bV then (I.VNN * rectBonds (nbh * nb) (nbv * nb) + I.VNNNper * rectDiagonals (nbh * nb) (nbv * nb)) *
          (c.nholes * ((c.nholes : ℝ) - 1)) else 0)) / (c.nsites * (c.nsites - 1))
    e0 ≤ mean ∧ mean ≤ e1 := by
  intro mean
  obtain ⟨d1, d2, _⟩ := built_form hc hf hn hb hH
  obtain ⟨e, w, a1, a2, _⟩ := exists_sorted _ d2
  have hm := C122_mean E hc hf hn I B hJ r v dets hb H hH e w a1 a2
  have hnn : (0 : ℝ) < c.nsites * (c.nsites - 1) := by
    have : (2 : ℝ) ≤ c.nsites := by exact_mod_cast h2
    nlinarith
  have hmean : ∑ k, e k = H.dim * mean := by
    have : (c.nsites : ℝ) * (c.nsites - 1) * mean = _ := mul_div_cancel₀ _ (ne_of_gt hnn)
    rw [← this, mul_left_comm] at hm
    exact mul_left_cancel₀ (ne_of_gt hnn) hm
  have hdim : 0 < H.dim := by
    rcases Nat.eq_zero_or_pos H.dim with h | h
    · obtain ⟨x, _, hx⟩ := (show Module.End.HasEigenvalue (Matrix.toLin' H.toMatrix) e0 from h0.1).exists_hasEigenvector
      refine absurd (funext fun i => ?_) hx
      exact absurd i.2 (by omega)
    · exact h
  have hd : (0 : ℝ) < H.dim := by exact_mod_cast hdim
  have l0 : (H.dim : ℝ) * e0 ≤ ∑ k, e k := by
    have : ∑ _k : Fin H.dim, e0 = (H.dim : ℝ) * e0 := by rw [sum_const, card_univ, Fintype.card_fin, nsmul_eq_mul]
    rw [← this]
    exact sum_le_sum fun k _ => h0.2 (hasEigenvalue_of_basis a1 a2 k)
  have l1 : ∑ k, e k ≤ (H.dim : ℝ) * e1 := by
    have : ∑ _k : Fin H.dim, e1 = (H.dim : ℝ) * e1 := by rw [sum_const, card_univ, Fintype.card_fin, nsmul_eq_mul]
    rw [← this]
    exact sum_le_sum fun k _ => h1.2 (hasEigenvalue_of_basis a1 a2 k)
  rw [hmean] at l0 l1
  exact ⟨le_of_mul_le_mul_left l0 hd, le_of_mul_le_mul_left l1 hd⟩

/-- Only the hopping is switched on. -/
def hoppingOnly : BoolInteractions := ⟨true, false, false, false, false, false⟩

/-- C122. The mean of the squares of the energies, with the hopping alone. -/
theorem C122_squares (E : Env) (hc : RectConf c nbh nbv nb) (hf : c.Full) (hn : c.nholes + c.nbeta ≤ c.nsites) (I : Interactions ℝ)
    (r : List Nat) (v : Bool) (dets : List (List Nat))
    (hb : constructBasis c = .ok dets) (H : SpMat ℝ) (hH : buildHamiltonian E c I dets hoppingOnly r v = .ok H)
    (e : Fin H.dim → ℝ) (w : Fin H.dim → Fin H.dim → ℝ) (hw : ∀ k, H.toMatrix *ᵥ w k = e k • w k)
    (hwo : ∀ i j, w i ⬝ᵥ w j = if i = j then 1 else 0) :
    (c.nsites : ℝ) * (c.nsites - 1) * ∑ k, e k ^ 2 =
      (H.dim : ℝ) * (2 * I.t ^ 2 * rectBonds (nbh * nb) (nbv * nb) * (c.nholes * ((c.nsites : ℝ) - c.nholes))) := by
  have hW : 0 < nbh * nb := Nat.mul_pos hc.hh hc.hb
  have hHt : 0 < nbv * nb := Nat.mul_pos hc.hv hc.hb
  have hns := hc.spec.1
  have hpos : 1 ≤ c.nsites := by rw [hns]; exact Nat.mul_pos hW hHt
  have hsym := (built_form hc hf hn hb hH).2.1
  obtain ⟨H', h1, h2, _, _⟩ := buildHamiltonian_spec I (hc.tj E) hf hn hb hoppingOnly r v
  obtain rfl := Except.ok.inj (hH.symm.trans h1)
  have hel := C31_matrix_elements E c nbh nbv nb hc hf hn I hoppingOnly r v dets hb H hH
  have hh : ∀ σ τ : Conf c.nsites, hamEl I (fun s => gridPos (nbh * nb) s) hoppingOnly σ τ = hopEl I (fun s => gridPos (nbh * nb) s) σ τ := by
    intro σ τ
    unfold hamEl hoppingOnly
    simp
  have ht : ∑ i, ∑ j, H.toMatrix i j ^ 2 =
      ∑ σ ∈ sectorConfs c.nsites c.nholes c.nbeta, ∑ τ, hopEl I (fun s => gridPos (nbh * nb) s) σ τ ^ 2 := by
    have s1 : ∑ i, ∑ j, H.toMatrix i j ^ 2 = ∑ i : Fin H.dim, ∑ j : Fin H.dim, H.entry i j ^ 2 := rfl
    have s2 : ∑ i : Fin H.dim, ∑ j : Fin H.dim, H.entry i j ^ 2 =
        ∑ i : Fin dets.length, ∑ j : Fin dets.length, hopEl I (fun s => gridPos (nbh * nb) s) (conf c dets[i]) (conf c dets[j]) ^ 2 := by
      rw [← sum_range (fun i => ∑ j : Fin H.dim, H.entry i j ^ 2), h2, sum_range]
      refine sum_congr rfl fun i _ => sum_congr rfl fun j _ => ?_
      rw [hel i j i.2 j.2, hh]
      rfl
    rw [s1, s2, ← sum_basis hn hb]
    refine sum_congr rfl fun i _ => ?_
    rw [sum_basis hn hb (fun τ => hopEl I (fun s => gridPos (nbh * nb) s) (conf c dets[i]) τ ^ 2)]
    refine sum_subset (subset_univ _) fun τ _ hτ => ?_
    have hv := (canonical_getElem hb i i.2).1
    have h0 : hamEl I (fun s => gridPos (nbh * nb) s) hoppingOnly (conf c dets[i]) τ = 0 := by
      by_cases g1 : τ.count .hole = c.nholes
      · have g2 : τ.count .down ≠ c.nbeta := by
          intro g2
          apply hτ
          unfold sectorConfs
          rw [mem_filter]
          exact ⟨mem_univ _, g1, g2⟩
        exact hamEl_sector _ _ _ .down (by rw [show (conf c dets[i]).count .down = c.nbeta from count_conf_down hn hv]; exact g2)
      · exact hamEl_sector _ _ _ .hole (by rw [show (conf c dets[i]).count .hole = c.nholes from count_conf_hole hn hv]; exact g1)
    rw [hh] at h0
    rw [h0]
    ring
  rw [sum_squares hsym hw hwo, ht, h2, ← card_sectorConfs hn hb]
  have hcast : (c.nsites : ℝ) * (c.nsites - 1) = ((c.nsites * (c.nsites - 1) : Nat) : ℝ) := by
    push_cast [Nat.cast_sub hpos]
    ring
  rw [hcast, sum_hop, card_nearPairs hW hns]
  have : ((c.nholes * (c.nsites - c.nholes) : Nat) : ℝ) = c.nholes * ((c.nsites : ℝ) - c.nholes) := by
    rw [Nat.cast_mul, Nat.cast_sub (by omega)]
  rw [this]
  unfold rectBonds
  ring

/-- C122. With the hopping alone the lowest energy is at most minus the root of this mean: holes that can move lower the energy. -/
theorem C122_hopping (E : Env) (hc : RectConf c nbh nbv nb) (hf : c.Full) (hn : c.nholes + c.nbeta ≤ c.nsites) (hs : 2 ≤ c.nsites)
    (I : Interactions ℝ) (r : List Nat) (v : Bool) (dets : List (List Nat))
    (hb : constructBasis c = .ok dets) (H : SpMat ℝ) (hH : buildHamiltonian E c I dets hoppingOnly r v = .ok H) (e0 : ℝ)
    (h0 : IsLeast {μ | Module.End.HasEigenvalue (Matrix.toLin' H.toMatrix) μ} e0) :
    e0 ≤ -(|I.t| * Real.sqrt (2 * rectBonds (nbh * nb) (nbv * nb) * (c.nholes * ((c.nsites : ℝ) - c.nholes)) / (c.nsites * (c.nsites - 1)))) := by
  set X := 2 * (rectBonds (nbh * nb) (nbv * nb) : ℝ) * (c.nholes * ((c.nsites : ℝ) - c.nholes)) / (c.nsites * (c.nsites - 1)) with hX
  obtain ⟨d1, d2, _⟩ := built_form hc hf hn hb hH
  obtain ⟨e, w, a1, a2, _⟩ := exists_sorted _ d2
  have hm := C122_squares E hc hf hn I r v dets hb H hH e w a1 a2
  have hnn : (0 : ℝ) < c.nsites * (c.nsites - 1) := by
    have : (2 : ℝ) ≤ c.nsites := by exact_mod_cast hs
    nlinarith
  have hmean : ∑ k, e k ^ 2 = H.dim * (I.t ^ 2 * X) := by
    have : (c.nsites : ℝ) * (c.nsites - 1) * X = _ := mul_div_cancel₀ _ (ne_of_gt hnn)
    have h3 : (c.nsites : ℝ) * (c.nsites - 1) * ∑ k, e k ^ 2 = (c.nsites : ℝ) * (c.nsites - 1) * (H.dim * (I.t ^ 2 * X)) := by
      rw [hm]
      linear_combination (-(H.dim : ℝ) * I.t ^ 2) * this
    exact mul_left_cancel₀ (ne_of_gt hnn) h3
  have hdim : 0 < H.dim := by
    rcases Nat.eq_zero_or_pos H.dim with h | h
    · obtain ⟨x, _, hx⟩ := (show Module.End.HasEigenvalue (Matrix.toLin' H.toMatrix) e0 from h0.1).exists_hasEigenvector
      refine absurd (funext fun i => ?_) hx
      exact absurd i.2 (by omega)
    · exact h
  have hd : (0 : ℝ) < H.dim := by exact_mod_cast hdim
  -- the spectrum is symmetric
  have hsymm : ∀ μ, Module.End.HasEigenvalue (Matrix.toLin' H.toMatrix) μ → Module.End.HasEigenvalue (Matrix.toLin' H.toMatrix) (-μ) := by
    intro μ hμ
    obtain ⟨G, g1, g2, _, _⟩ := buildHamiltonian_spec { I with t := - I.t } (hc.tj E) hf hn hb hoppingOnly r v
    have hfr := C104_sign_of_t E c nbh nbv nb hc hf hn I hoppingOnly r v dets hb H G hH g1 μ
    have hG : Module.End.HasEigenvalue (Matrix.toLin' G.toMatrix) μ := by
      rw [Module.End.hasEigenvalue_iff] at hμ ⊢
      intro hbot
      rw [hbot, finrank_bot] at hfr
      exact hμ (Submodule.finrank_eq_zero.1 hfr)
    have el1 := C31_matrix_elements E c nbh nbv nb hc hf hn I hoppingOnly r v dets hb H hH
    have el2 := C31_matrix_elements E c nbh nbv nb hc hf hn { I with t := - I.t } hoppingOnly r v dets hb G g1
    have hneg : ∀ i j, i < dets.length → j < dets.length → G.entry i j = - H.entry i j := by
      intro i j hi hj
      rw [el1 i j hi hj, el2 i j hi hj]
      unfold hamEl hoppingOnly hopEl
      simp only [if_true, Bool.false_eq_true, if_false, add_zero, ← sum_neg_distrib]
      refine sum_congr rfl fun a _ => sum_congr rfl fun b _ => ?_
      split_ifs <;> simp
    obtain ⟨x, hx, hx0⟩ := hG.exists_hasEigenvector
    rw [Module.End.mem_eigenspace_iff, Matrix.toLin'_apply] at hx
    have hdd : G.dim = H.dim := by rw [g2, d1]
    refine Module.End.hasEigenvalue_of_hasEigenvector (x := fun i : Fin H.dim => x (Fin.cast hdd.symm i)) ⟨?_, ?_⟩
    · rw [Module.End.mem_eigenspace_iff, Matrix.toLin'_apply]
      funext i
      have hi := congrFun hx (Fin.cast hdd.symm i)
      have s1 : ∑ j : Fin H.dim, H.entry i j * x (Fin.cast hdd.symm j) = - ∑ j : Fin G.dim, G.entry i j * x j := by
        rw [← sum_neg_distrib]
        refine Fintype.sum_equiv (finCongr hdd.symm) _ _ fun j => ?_
        have : G.entry i (finCongr hdd.symm j) = - H.entry i j := hneg i j (by rw [← d1]; exact i.2) (by rw [← d1]; exact j.2)
        rw [this]
        simp
      have s2 : (∑ j : Fin G.dim, G.entry i j * x j) = μ * x (Fin.cast hdd.symm i) := hi
      have s3 : (H.toMatrix *ᵥ fun i : Fin H.dim => x (Fin.cast hdd.symm i)) i = ∑ j : Fin H.dim, H.entry i j * x (Fin.cast hdd.symm j) := rfl
      rw [s3, s1, s2]
      simp
    · intro hz
      apply hx0
      funext i
      exact congrFun hz (Fin.cast hdd i)
  have habs : ∀ k, e k ^ 2 ≤ e0 ^ 2 := by
    intro k
    have q1 := h0.2 (hasEigenvalue_of_basis a1 a2 k)
    have q2 := h0.2 (hsymm _ (hasEigenvalue_of_basis a1 a2 k))
    rw [← sq_abs (e k), ← sq_abs e0]
    refine pow_le_pow_left₀ (abs_nonneg _) ?_ 2
    rw [abs_le]
    have : -e0 ≤ |e0| := neg_le_abs e0
    constructor <;> linarith
  have hle : (H.dim : ℝ) * (I.t ^ 2 * X) ≤ H.dim * e0 ^ 2 := by
    rw [← hmean]
    have : ∑ _k : Fin H.dim, e0 ^ 2 = (H.dim : ℝ) * e0 ^ 2 := by rw [sum_const, card_univ, Fintype.card_fin, nsmul_eq_mul]
    rw [← this]
    exact sum_le_sum fun k _ => habs k
  have hle' := le_of_mul_le_mul_left hle hd
  have hneg : e0 ≤ 0 := by
    have := h0.2 (hsymm e0 h0.1)
    linarith
  have hroot : |I.t| * Real.sqrt X = Real.sqrt (I.t ^ 2 * X) := by
    rw [Real.sqrt_mul (sq_nonneg _), Real.sqrt_sq_eq_abs]
  rw [hroot]
  have : Real.sqrt (I.t ^ 2 * X) ≤ -e0 := by
    rw [show -e0 = Real.sqrt (e0 ^ 2) by rw [Real.sqrt_sq_eq_abs, abs_of_nonpos hneg]]
    exact Real.sqrt_le_sqrt hle'
  linarith

/-- A site has at most four neighbours. -/
theorem card_near_le {n W : Nat} (s : Fin n) : (univ.filter fun t : Fin n => Near (gridPos W s) (gridPos W t)).card ≤ 4 := by
  set p := gridPos W s with hp
  have hinj : Set.InjOn (fun t : Fin n => gridPos W t) (univ.filter fun t : Fin n => Near p (gridPos W t) : Finset (Fin n)) := by
    intro a _ b _ h
    simp only [gridPos, Prod.mk.injEq, Nat.cast_inj] at h
    apply Fin.ext
    rw [← Nat.mod_add_div a.1 W, ← Nat.mod_add_div b.1 W, h.1, h.2]
  rw [← card_image_of_injOn hinj]
  refine (card_le_card (t := {(p.1 + 1, p.2), (p.1 - 1, p.2), (p.1, p.2 + 1), (p.1, p.2 - 1)}) ?_).trans (card_le_four)
  intro q hq
  rw [mem_image] at hq
  obtain ⟨t, ht, rfl⟩ := hq
  have hN := (mem_filter.1 ht).2
  generalize gridPos W t = q at hN
  unfold Near at hN
  simp only [mem_insert, mem_singleton, Prod.ext_iff]
  omega

/-- C122. With the hopping alone no energy exceeds four times the number of holes times `|t|`. -/
theorem C122_bounded (E : Env) (hc : RectConf c nbh nbv nb) (hf : c.Full) (hn : c.nholes + c.nbeta ≤ c.nsites)
    (I : Interactions ℝ) (r : List Nat) (v : Bool) (dets : List (List Nat))
    (hb : constructBasis c = .ok dets) (H : SpMat ℝ) (hH : buildHamiltonian E c I dets hoppingOnly r v = .ok H) (μ : ℝ)
    (hμ : Module.End.HasEigenvalue (Matrix.toLin' H.toMatrix) μ) : |μ| ≤ 4 * c.nholes * |I.t| := by
  obtain ⟨d1, _, _⟩ := built_form hc hf hn hb hH
  have hel := C31_matrix_elements E c nbh nbv nb hc hf hn I hoppingOnly r v dets hb H hH
  set pos : Fin c.nsites → Pt := fun s => gridPos (nbh * nb) s with hpos
  have hh : ∀ σ τ : Conf c.nsites, hamEl I pos hoppingOnly σ τ = hopEl I pos σ τ := by
    intro σ τ
    unfold hamEl hoppingOnly
    simp
  obtain ⟨k, hk⟩ := eigenvalue_mem_ball hμ
  have hkl : k.1 < dets.length := by rw [← d1]; exact k.2
  have hkk : H.toMatrix k k = 0 := by
    have : H.toMatrix k k = H.entry k k := rfl
    rw [this, hel k k hkl hkl, hh, hopEl_diag]
  rw [hkk, mem_closedBall_zero_iff, Real.norm_eq_abs] at hk
  refine hk.trans ?_
  set σ := conf c dets[k.1] with hσ
  have s1 : ∑ j ∈ univ.erase k, ‖H.toMatrix k j‖ ≤ ∑ j : Fin H.dim, |H.entry k j| :=
    sum_le_sum_of_subset_of_nonneg (subset_univ _) fun _ _ _ => norm_nonneg _
  have s2 : ∑ j : Fin H.dim, |H.entry k j| = ∑ j : Fin dets.length, |hopEl I pos σ (conf c dets[j])| := by
    refine Fintype.sum_equiv (finCongr d1) _ _ fun j => ?_
    have := hel k j hkl (by rw [← d1]; exact j.2)
    rw [this, hh]
    rfl
  have s3 : ∑ j : Fin dets.length, |hopEl I pos σ (conf c dets[j])| ≤ ∑ τ, |hopEl I pos σ τ| := by
    rw [sum_basis hn hb (fun τ => |hopEl I pos σ τ|)]
    exact sum_le_sum_of_subset_of_nonneg (subset_univ _) fun _ _ _ => abs_nonneg _
  have s4 : ∑ τ, |hopEl I pos σ τ| ≤ ∑ a, ∑ b, if σ a = .hole ∧ Near (pos a) (pos b) then |I.t| else 0 := by
    calc ∑ τ, |hopEl I pos σ τ| ≤ ∑ τ, ∑ a, ∑ b, if σ a = .hole ∧ Near (pos a) (pos b) ∧ τ = exch σ a b then |I.t| else 0 := by
          refine sum_le_sum fun τ _ => ?_
          unfold hopEl
          refine (abs_sum_le_sum_abs _ _).trans (sum_le_sum fun a _ => (abs_sum_le_sum_abs _ _).trans (sum_le_sum fun b _ => ?_))
          split_ifs with g1 g2 g2
          · exact le_rfl
          · exact absurd ⟨g1.1, g1.2.2⟩ g2
          · rw [abs_zero]; exact abs_nonneg _
          · rw [abs_zero]
      _ = _ := by
          rw [sum_comm]
          refine sum_congr rfl fun a _ => ?_
          rw [sum_comm]
          refine sum_congr rfl fun b _ => ?_
          by_cases g : σ a = .hole ∧ Near (pos a) (pos b)
          · simp [g]
          · rw [if_neg g]
            exact sum_eq_zero fun τ _ => if_neg fun q => g ⟨q.1, q.2.1⟩
  have s5 : ∑ a, ∑ b, (if σ a = .hole ∧ Near (pos a) (pos b) then |I.t| else 0) ≤ ∑ a, if σ a = .hole then 4 * |I.t| else 0 := by
    refine sum_le_sum fun a _ => ?_
    by_cases ha : σ a = .hole
    · simp only [ha, true_and, if_true]
      rw [← sum_filter, sum_const, nsmul_eq_mul]
      have : ((univ.filter fun t : Fin c.nsites => Near (pos a) (pos t)).card : ℝ) ≤ 4 := by exact_mod_cast card_near_le a
      exact mul_le_mul_of_nonneg_right this (abs_nonneg _)
    · simp [ha]
  have s6 : ∑ a, (if σ a = .hole then 4 * |I.t| else 0) = 4 * c.nholes * |I.t| := by
    rw [← sum_filter, sum_const, nsmul_eq_mul]
    have : (univ.filter fun a => σ a = .hole).card = c.nholes := count_conf_hole hn (canonical_getElem hb k hkl).1
    rw [this]
    ring
  linarith [s1, s2.le, s3, s4, s5, s6.le]

/-- An eigenvalue is one of the values of every orthonormal basis of eigenvectors. -/
theorem eigenvalue_in_basis {d : Nat} {M : Matrix (Fin d) (Fin d) ℝ} {e : Fin d → ℝ} {w : Fin d → Fin d → ℝ} (hM : M.IsSymm)
    (hw : ∀ k, M *ᵥ w k = e k • w k) (hwo : ∀ i j, w i ⬝ᵥ w j = if i = j then 1 else 0) {μ : ℝ}
    (hμ : Module.End.HasEigenvalue (Matrix.toLin' M) μ) : ∃ k, μ = e k := by
  obtain ⟨x, hx, hx0⟩ := hμ.exists_hasEigenvector
  rw [Module.End.mem_eigenspace_iff, Matrix.toLin'_apply] at hx
  have h1 : Matrix.of w * (Matrix.of w)ᵀ = 1 := by
    ext i j
    rw [Matrix.one_apply, ← hwo i j]
    rfl
  have h2 := mul_eq_one_comm.1 h1
  have hex : ∃ k, w k ⬝ᵥ x ≠ 0 := by
    by_contra hcon
    push Not at hcon
    apply hx0
    have h3 : Matrix.of w *ᵥ x = 0 := funext hcon
    rw [← Matrix.one_mulVec x, ← h2, ← mulVec_mulVec, h3, mulVec_zero]
  obtain ⟨k, hk⟩ := hex
  refine ⟨k, ?_⟩
  have h4 : w k ⬝ᵥ (M *ᵥ x) = (M *ᵥ w k) ⬝ᵥ x := by
    rw [dotProduct_mulVec, ← mulVec_transpose, hM.eq]
  rw [hx, hw, dotProduct_smul, smul_dotProduct, smul_eq_mul, smul_eq_mul] at h4
  exact mul_right_cancel₀ hk h4

/-- C123. Exchange couplings between 0 and `δ` lower an energy of the hopping by at most `δ` per bond, repulsions between 0 and `ε`, `η`
raise it by at most `ε` per bond and `η` per diagonal (energies in ascending order, singlet displacement and hopping by two bonds off). -/
theorem C123_window (E : Env) (hc : RectConf c nbh nbv nb) (hf : c.Full) (hn : c.nholes + c.nbeta ≤ c.nsites)
    (I : Interactions ℝ) (δ ε η : ℝ) (hJ : (0 ≤ I.J ∧ I.J ≤ δ) ∧ (0 ≤ I.Jhpar ∧ I.Jhpar ≤ δ) ∧ (0 ≤ I.Jhper ∧ I.Jhper ≤ δ))
    (hV : (0 ≤ I.VNN ∧ I.VNN ≤ ε) ∧ (0 ≤ I.VNNNper ∧ I.VNNNper ≤ η)) (B : BoolInteractions) (ht : B.bt = true) (hB : B.bij = true → B.bz = true)
    (hS : B.bSD = false) (hN : B.btN = false) (r : List Nat) (v : Bool) (dets : List (List Nat))
    (hb : constructBasis c = .ok dets) (H G : SpMat ℝ) (hH : buildHamiltonian E c I dets B r v = .ok H)
    (hG : buildHamiltonian E c I dets hoppingOnly r v = .ok G)
    (e : Fin H.dim → ℝ) (w : Fin H.dim → Fin H.dim → ℝ) (hw : ∀ k, H.toMatrix *ᵥ w k = e k • w k)
    (hwo : ∀ i j, w i ⬝ᵥ w j = if i = j then 1 else 0) (he : Monotone e)
    (g : Fin G.dim → ℝ) (z : Fin G.dim → Fin G.dim → ℝ) (hz : ∀ k, G.toMatrix *ᵥ z k = g k • z k)
    (hzo : ∀ i j, z i ⬝ᵥ z j = if i = j then 1 else 0) (hg : Monotone g) :
    H.dim = G.dim ∧ ∀ k (hk : k < H.dim) (hk' : k < G.dim),
      g ⟨k, hk'⟩ - rectBonds (nbh * nb) (nbv * nb) * δ ≤ e ⟨k, hk⟩ ∧
      e ⟨k, hk⟩ ≤ g ⟨k, hk'⟩ + (rectBonds (nbh * nb) (nbv * nb) * ε + rectDiagonals (nbh * nb) (nbv * nb) * η) := by
  have hW : 0 < nbh * nb := Nat.mul_pos hc.hh hc.hb
  have hns := hc.spec.1
  set I1 : Interactions ℝ := { I with J := 0, Jhpar := 0, Jhper := 0 } with hI1
  set I2 : Interactions ℝ := { I1 with VNN := 0, VNNNper := 0 } with hI2
  obtain ⟨H1, b1, _⟩ := buildHamiltonian_spec I1 (hc.tj E) hf hn hb B r v
  obtain ⟨H2, b2, _⟩ := buildHamiltonian_spec I2 (hc.tj E) hf hn hb B r v
  obtain ⟨q1, s1, _⟩ := built_form hc hf hn hb b1
  obtain ⟨q2, s2, _⟩ := built_form hc hf hn hb b2
  obtain ⟨qH, _, _⟩ := built_form hc hf hn hb hH
  obtain ⟨qG, _, _⟩ := built_form hc hf hn hb hG
  have dn : (nearPairs fun s : Fin c.nsites => gridPos (nbh * nb) s).card = rectBonds (nbh * nb) (nbv * nb) := card_nearPairs hW hns
  have dd : (diagonalPairs fun s : Fin c.nsites => gridPos (nbh * nb) s).card = rectDiagonals (nbh * nb) (nbv * nb) := card_diagonalPairs hW hns
  obtain ⟨e1, w1, x1, y1, m1⟩ := exists_sorted _ s1
  refine ⟨qH.trans qG.symm, fun k hk hk' => ?_⟩
  have hk1 : k < H1.dim := by omega
  have hk2 : k < H2.dim := by omega
  -- the matrix without exchange and repulsion is the matrix of the hopping
  have hent : ∀ i j, i < dets.length → j < dets.length → H2.entry i j = G.entry i j := by
    intro i j hi hj
    rw [C31_matrix_elements E c nbh nbv nb hc hf hn I2 B r v dets hb H2 b2 i j hi hj,
      C31_matrix_elements E c nbh nbv nb hc hf hn I hoppingOnly r v dets hb G hG i j hi hj]
    have t1 : ∀ σ τ : Conf c.nsites, staticEl I2 (fun s => gridPos (nbh * nb) s) σ τ = 0 := by
      intro σ τ
      unfold staticEl Jeff
      simp [hI2, hI1]
    have t2 : ∀ σ τ : Conf c.nsites, flipEl I2 (fun s => gridPos (nbh * nb) s) σ τ = 0 := by
      intro σ τ
      unfold flipEl Jeff
      simp [hI2, hI1]
    have t3 : ∀ σ τ : Conf c.nsites, repEl I2 (fun s => gridPos (nbh * nb) s) σ τ = 0 := by
      intro σ τ
      unfold repEl
      simp [hI2]
    have t4 : ∀ σ τ : Conf c.nsites, hopEl I2 (fun s => gridPos (nbh * nb) s) σ τ = hopEl I (fun s => gridPos (nbh * nb) s) σ τ := fun _ _ => rfl
    unfold hamEl hoppingOnly
    rw [t1, t2, t3, t4, ht, hS, hN]
    simp
  have hbas : ∃ z2 : Fin H2.dim → Fin H2.dim → ℝ, (∀ k, H2.toMatrix *ᵥ z2 k = g ⟨k, by omega⟩ • z2 k) ∧
      (∀ i j, z2 i ⬝ᵥ z2 j = if i = j then 1 else 0) := by
    have hd : H2.dim = G.dim := q2.trans qG.symm
    clear hG hH b2 b1
    obtain ⟨d2, M2⟩ := H2
    obtain ⟨dG, MG⟩ := G
    obtain rfl : d2 = dG := hd
    refine ⟨z, fun k => ?_, hzo⟩
    have hM : (SpMat.mk d2 M2 : SpMat ℝ).toMatrix = (SpMat.mk d2 MG : SpMat ℝ).toMatrix := by
      ext i j
      exact hent i j (lt_of_lt_of_eq i.2 q2) (lt_of_lt_of_eq j.2 q2)
    rw [hM]
    exact hz k
  obtain ⟨z2, x2, y2⟩ := hbas
  set g2 : Fin H2.dim → ℝ := fun k => g ⟨k, by omega⟩ with hg2
  have m2 : Monotone g2 := fun i j hij => hg hij
  have raise1 : Raised I I1 := ⟨⟨rfl, rfl, rfl, rfl, rfl⟩, ⟨hJ.1.1, hJ.2.1.1, hJ.2.2.1⟩, ⟨le_rfl, le_rfl⟩⟩
  have raise2 : Raised I2 I1 := ⟨⟨rfl, rfl, rfl, rfl, rfl⟩, ⟨le_rfl, le_rfl, le_rfl⟩, ⟨hV.1.1, hV.2.1⟩⟩
  have within1 : Within I I1 δ 0 0 := ⟨⟨by simpa [hI1] using hJ.1.2, by simpa [hI1] using hJ.2.1.2, by simpa [hI1] using hJ.2.2.2⟩, by simp [hI1]⟩
  have within2 : Within I2 I1 0 ε η := ⟨by simp [hI2], by simpa [hI2] using hV.1.2, by simpa [hI2] using hV.2.2⟩
  have hδ : 0 ≤ δ := hJ.1.1.trans hJ.1.2
  have hε : 0 ≤ ε := hV.1.1.trans hV.1.2
  have hη : 0 ≤ η := hV.2.1.trans hV.2.2
  have r1 := (C115_monotone E c nbh nbv nb hc hf hn I I1 raise1 B hB r v dets hb H H1 hH b1 e w hw hwo he e1 w1 x1 y1 m1).2 k hk hk1
  have r2 := C115_continuous E c nbh nbv nb hc hf hn I I1 raise1 δ 0 0 hδ le_rfl le_rfl within1 B hB r v dets hb H H1 hH b1 e w hw hwo he
    e1 w1 x1 y1 m1 k hk hk1
  have r3 := (C115_monotone E c nbh nbv nb hc hf hn I2 I1 raise2 B hB r v dets hb H2 H1 b2 b1 g2 z2 x2 y2 m2 e1 w1 x1 y1 m1).2 k hk2 hk1
  have r4 := C115_continuous E c nbh nbv nb hc hf hn I2 I1 raise2 0 ε η le_rfl hε hη within2 B hB r v dets hb H2 H1 b2 b1 g2 z2 x2 y2 m2
    e1 w1 x1 y1 m1 k hk2 hk1
  rw [dn, dd] at r2 r4
  have r5 : g2 ⟨k, hk2⟩ = g ⟨k, hk'⟩ := rfl
  rw [r5] at r3 r4
  constructor
  · linarith
  · linarith

/-- C123. All energies of the t-J Hamiltonian with antiferromagnetic exchange up to `δ` and repulsions up to `ε`, `η` lie between
`-4 h |t| - δ bonds` and `4 h |t| + ε bonds + η diagonals`. -/
theorem C123_all_energies (E : Env) (hc : RectConf c nbh nbv nb) (hf : c.Full) (hn : c.nholes + c.nbeta ≤ c.nsites)
    (I : Interactions ℝ) (δ ε η : ℝ) (hJ : (0 ≤ I.J ∧ I.J ≤ δ) ∧ (0 ≤ I.Jhpar ∧ I.Jhpar ≤ δ) ∧ (0 ≤ I.Jhper ∧ I.Jhper ≤ δ))
    (hV : (0 ≤ I.VNN ∧ I.VNN ≤ ε) ∧ (0 ≤ I.VNNNper ∧ I.VNNNper ≤ η)) (B : BoolInteractions) (ht : B.bt = true) (hB : B.bij = true → B.bz = true)
    (hS : B.bSD = false) (hN : B.btN = false) (r : List Nat) (v : Bool) (dets : List (List Nat))
    (hb : constructBasis c = .ok dets) (H : SpMat ℝ) (hH : buildHamiltonian E c I dets B r v = .ok H) (μ : ℝ)
    (hμ : Module.End.HasEigenvalue (Matrix.toLin' H.toMatrix) μ) :
    -(4 * c.nholes * |I.t| + rectBonds (nbh * nb) (nbv * nb) * δ) ≤ μ ∧
      μ ≤ 4 * c.nholes * |I.t| + (rectBonds (nbh * nb) (nbv * nb) * ε + rectDiagonals (nbh * nb) (nbv * nb) * η) := by
  obtain ⟨G, b1, _⟩ := buildHamiltonian_spec I (hc.tj E) hf hn hb hoppingOnly r v
  obtain ⟨_, s, _⟩ := built_form hc hf hn hb hH
  obtain ⟨_, s', _⟩ := built_form hc hf hn hb b1
  obtain ⟨e, w, a1, a2, a3⟩ := exists_sorted _ s
  obtain ⟨g, z, z1, z2, z3⟩ := exists_sorted _ s'
  obtain ⟨hd, hwin⟩ := C123_window E hc hf hn I δ ε η hJ hV B ht hB hS hN r v dets hb H G hH b1 e w a1 a2 a3 g z z1 z2 z3
  obtain ⟨k, rfl⟩ := eigenvalue_in_basis s a1 a2 hμ
  obtain ⟨l1, l2⟩ := hwin k k.2 (hd ▸ k.2)
  have hbd := abs_le.1 (C122_bounded E hc hf hn I r v dets hb G b1 _ (hasEigenvalue_of_basis z1 z2 ⟨k, hd ▸ k.2⟩))
  constructor <;> linarith [hbd.1, hbd.2]

/-- C123. The lowest energy with repulsions up to `ε`, `η` and any antiferromagnetic exchange is at most the bound for the hopping plus `ε`
per bond and `η` per diagonal. -/
theorem C123_lowest (E : Env) (hc : RectConf c nbh nbv nb) (hf : c.Full) (hn : c.nholes + c.nbeta ≤ c.nsites) (hs : 2 ≤ c.nsites)
    (I : Interactions ℝ) (ε η : ℝ) (hJ : 0 ≤ I.J ∧ 0 ≤ I.Jhpar ∧ 0 ≤ I.Jhper)
    (hV : (0 ≤ I.VNN ∧ I.VNN ≤ ε) ∧ (0 ≤ I.VNNNper ∧ I.VNNNper ≤ η)) (B : BoolInteractions) (ht : B.bt = true) (hB : B.bij = true → B.bz = true)
    (hS : B.bSD = false) (hN : B.btN = false) (r : List Nat) (v : Bool) (dets : List (List Nat))
    (hb : constructBasis c = .ok dets) (H : SpMat ℝ) (hH : buildHamiltonian E c I dets B r v = .ok H) (e0 : ℝ)
    (h0 : IsLeast {μ | Module.End.HasEigenvalue (Matrix.toLin' H.toMatrix) μ} e0) :
    e0 ≤ -(|I.t| * Real.sqrt (2 * rectBonds (nbh * nb) (nbv * nb) * (c.nholes * ((c.nsites : ℝ) - c.nholes)) / (c.nsites * (c.nsites - 1)))) +
      (rectBonds (nbh * nb) (nbv * nb) * ε + rectDiagonals (nbh * nb) (nbv * nb) * η) := by
  obtain ⟨G, b1, _⟩ := buildHamiltonian_spec I (hc.tj E) hf hn hb hoppingOnly r v
  obtain ⟨_, s, _⟩ := built_form hc hf hn hb hH
  obtain ⟨_, s', _⟩ := built_form hc hf hn hb b1
  obtain ⟨e, w, a1, a2, a3⟩ := exists_sorted _ s
  obtain ⟨g, z, z1, z2, z3⟩ := exists_sorted _ s'
  obtain ⟨hd, hwin⟩ := C123_window E hc hf hn I (max I.J (max I.Jhpar I.Jhper)) ε η
    ⟨⟨hJ.1, le_max_left _ _⟩, ⟨hJ.2.1, le_max_of_le_right (le_max_left _ _)⟩, ⟨hJ.2.2, le_max_of_le_right (le_max_right _ _)⟩⟩
    hV B ht hB hS hN r v dets hb H G hH b1 e w a1 a2 a3 g z z1 z2 z3
  obtain ⟨k, hk⟩ := eigenvalue_in_basis s a1 a2 h0.1
  have hdim : 0 < G.dim := by have := k.2; omega
  obtain ⟨g0, hg0⟩ := exists_least s' hdim
  obtain ⟨k', hk'⟩ := eigenvalue_in_basis s' z1 z2 hg0.1
  have l1 := C122_hopping E hc hf hn hs I r v dets hb G b1 g0 hg0
  have hlt : (k' : Nat) < H.dim := lt_of_lt_of_eq k'.2 hd.symm
  have l2 := (hwin k' hlt k'.2).2
  have l3 := h0.2 (hasEigenvalue_of_basis a1 a2 ⟨k', hlt⟩)
  rw [hk'] at l1
  linarith

end

/-! ### Cases that meet the hypotheses -/

/-- 4 x 4 sites in four blocks, two holes, seven up and seven down spins, all terms and `J = 1`, `VNN = 2`, `VNNNper = 3`: the energies
have the sum `dim · (-24 · 49 + (2 · 24 + 3 · 18) · 2) / 240`. -/
example (E : Env) : ∃ H : SpMat ℝ, ∃ (e : Fin H.dim → ℝ) (w : Fin H.dim → Fin H.dim → ℝ), (∀ k, H.toMatrix *ᵥ w k = e k • w k) ∧
    (∀ i j, w i ⬝ᵥ w j = if i = j then 1 else 0) ∧ ∑ k, e k = (H.dim : ℝ) * (-(972 / 240)) := by
  have hc := rectConf_ok 2 2 2 2 7 (by decide) (by decide) (by decide)
  have hf : (rectConf 2 2 2 2 7).Full := by unfold Config.Full; decide +kernel
  have hn : (rectConf 2 2 2 2 7).nholes + (rectConf 2 2 2 2 7).nbeta ≤ (rectConf 2 2 2 2 7).nsites := by decide +kernel
  obtain ⟨dets, hb⟩ : ∃ dets, constructBasis (rectConf 2 2 2 2 7) = .ok dets := ⟨_, constructBasis_eq _⟩
  obtain ⟨H, h1, _⟩ := buildHamiltonian_spec (⟨5, 1, 1, 1, 5, 6, 7, 8, 2, 3⟩ : Interactions ℝ) (hc.tj E) hf hn hb ⟨true, true, true, true, true, true⟩ [] false
  obtain ⟨e, w, a1, a2, _⟩ := exists_sorted _ (built_form hc hf hn hb h1).2.1
  refine ⟨H, e, w, a1, a2, ?_⟩
  have h := C122_mean E hc hf hn (⟨5, 1, 1, 1, 5, 6, 7, 8, 2, 3⟩ : Interactions ℝ) _ (fun _ => Or.inr ⟨rfl, rfl⟩) [] false dets hb H h1 e w a1 a2
  have e1 : (rectConf 2 2 2 2 7).nsites = 16 := hc.spec.1
  have e2 : (rectConf 2 2 2 2 7).nholes = 2 := rfl
  have e3 : (rectConf 2 2 2 2 7).nbeta = 7 := rfl
  have e4 : rectBonds (2 * 2) (2 * 2) = 24 := rfl
  have e5 : rectDiagonals (2 * 2) (2 * 2) = 18 := rfl
  rw [e1, e2, e3, e4, e5] at h
  simp only [if_true] at h
  push_cast at h
  linarith

/-- 3 x 3 sites with two holes: the lowest energy of the hopping is between `-8 |t|` and `-|t| √(2 · 12 · 14 / 72)`. -/
example (E : Env) (I : Interactions ℝ) : ∃ (H : SpMat ℝ) (e0 : ℝ), IsLeast {μ | Module.End.HasEigenvalue (Matrix.toLin' H.toMatrix) μ} e0 ∧
    -(8 * |I.t|) ≤ e0 ∧ e0 ≤ -(|I.t| * Real.sqrt (14 / 3)) := by
  have hc := rectConf_ok 3 3 1 2 3 (by decide) (by decide) (by decide)
  have hf : (rectConf 3 3 1 2 3).Full := by unfold Config.Full; decide +kernel
  have hn : (rectConf 3 3 1 2 3).nholes + (rectConf 3 3 1 2 3).nbeta ≤ (rectConf 3 3 1 2 3).nsites := by decide +kernel
  obtain ⟨dets, H, hb, h1, h2, _⟩ := C30_no_failure E _ 3 3 1 hc hf hn I hoppingOnly [] false
  have hpos : 0 < H.dim := by
    rw [h2, C02_dimension _ _ hb]
    decide +kernel
  obtain ⟨e0, h0⟩ := exists_least (built_form hc hf hn hb h1).2.1 hpos
  refine ⟨H, e0, h0, ?_, ?_⟩
  · have := C122_bounded E hc hf hn I [] false dets hb H h1 e0 h0.1
    have e2 : ((rectConf 3 3 1 2 3).nholes : ℝ) = 2 := rfl
    rw [e2] at this
    linarith [(abs_le.1 this).1]
  · have := C122_hopping E hc hf hn (by decide +kernel) I [] false dets hb H h1 e0 h0
    have e1 : ((rectConf 3 3 1 2 3).nsites : ℝ) = 9 := by
      have : (rectConf 3 3 1 2 3).nsites = 9 := hc.spec.1
      rw [this]
      norm_num
    have e2 : ((rectConf 3 3 1 2 3).nholes : ℝ) = 2 := rfl
    have e4 : (rectBonds (3 * 1) (3 * 1) : ℝ) = 12 := by norm_num [rectBonds]
    rw [e1, e2, e4] at this
    convert this using 4
    norm_num

/-- 3 x 3 sites with two holes, `t = 1`, exchange up to `1/2`, `VNN = 1/10`, `VNNNper = 1/5`: all energies are between `-14` and
`8 + 28/10`, the lowest is at most `-√(14/3) + 28/10`. -/
example (E : Env) : ∃ (H : SpMat ℝ) (e0 : ℝ), IsLeast {μ | Module.End.HasEigenvalue (Matrix.toLin' H.toMatrix) μ} e0 ∧
    (∀ μ, Module.End.HasEigenvalue (Matrix.toLin' H.toMatrix) μ → -14 ≤ μ ∧ μ ≤ 108 / 10) ∧ e0 ≤ -Real.sqrt (14 / 3) + 28 / 10 := by
  have hc := rectConf_ok 3 3 1 2 3 (by decide) (by decide) (by decide)
  have hf : (rectConf 3 3 1 2 3).Full := by unfold Config.Full; decide +kernel
  have hn : (rectConf 3 3 1 2 3).nholes + (rectConf 3 3 1 2 3).nbeta ≤ (rectConf 3 3 1 2 3).nsites := by decide +kernel
  obtain ⟨dets, H, hb, h1, h2, _⟩ := C30_no_failure E _ 3 3 1 hc hf hn (⟨1, 1 / 2, 1 / 3, 1 / 4, 5, 6, 7, 8, 1 / 10, 1 / 5⟩ : Interactions ℝ)
    ⟨true, true, true, false, false, true⟩ [] false
  have hpos : 0 < H.dim := by
    rw [h2, C02_dimension _ _ hb]
    decide +kernel
  obtain ⟨e0, h0⟩ := exists_least (built_form hc hf hn hb h1).2.1 hpos
  have e1 : ((rectConf 3 3 1 2 3).nsites : ℝ) = 9 := by
    have : (rectConf 3 3 1 2 3).nsites = 9 := hc.spec.1
    rw [this]
    norm_num
  have e2 : ((rectConf 3 3 1 2 3).nholes : ℝ) = 2 := rfl
  have e4 : (rectBonds (3 * 1) (3 * 1) : ℝ) = 12 := by norm_num [rectBonds]
  have e5 : (rectDiagonals (3 * 1) (3 * 1) : ℝ) = 8 := by norm_num [rectDiagonals]
  refine ⟨H, e0, h0, fun μ hμ => ?_, ?_⟩
  · have := C123_all_energies E hc hf hn _ (1 / 2) (1 / 10) (1 / 5) (by norm_num) (by norm_num) _ rfl (fun _ => rfl) rfl rfl [] false dets hb H h1 μ hμ
    rw [e2, e4, e5, abs_one] at this
    constructor <;> linarith [this.1, this.2]
  · have := C123_lowest E hc hf hn (by decide +kernel) _ (1 / 10) (1 / 5) (by norm_num) (by norm_num) _ rfl (fun _ => rfl) rfl rfl [] false dets hb H h1 e0 h0
    rw [e1, e2, e4, e5, abs_one, one_mul] at this
    have e6 : (2 * 12 * (2 * ((9 : ℝ) - 2)) / (9 * (9 - 1))) = 14 / 3 := by norm_num
    rw [e6] at this
    linarith

end TJ
