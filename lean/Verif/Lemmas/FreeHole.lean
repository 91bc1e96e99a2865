/-
One hole among up spins, and the eigenfunctions of a path and of a rectangle.
-/
import Verif.Props.Hamiltonian
import Mathlib.Analysis.SpecialFunctions.Trigonometric.Bounds
import Mathlib.LinearAlgebra.Eigenspace.Matrix
import Mathlib.LinearAlgebra.Matrix.ToLin
import Mathlib.LinearAlgebra.Matrix.NonsingularInverse

namespace TJ

open Finset

/-! ### The basis with one hole and no down spin -/

theorem combinations_one {α : Type} (l : List α) : combinations l 1 = l.map (fun x => [x]) := by
  induction l with
  | nil => rfl
  | cons x xs ih =>
    show (combinations xs 0).map (fun l => x :: l) ++ combinations xs 1 = _
    rw [ih]
    cases xs <;> rfl

theorem combinations_zero {α : Type} (l : List α) : combinations l 0 = [[]] := by cases l <;> rfl

theorem basisList_one (n : Nat) : basisList n 1 0 = (List.range n).map (fun s => s :: freeOf n [s]) := by
  unfold basisList
  rw [combinations_one, List.flatMap_map]
  have : ∀ s, basisBlock n 0 [s] = [s :: freeOf n [s]] := by
    intro s
    unfold basisBlock
    rw [combinations_zero]
    simp
  simp only [this]
  induction List.range n with
  | nil => rfl
  | cons x xs ih => rw [List.flatMap_cons, ih]; rfl

/-- A hole at `i`, up spins elsewhere. -/
def holeAt {n : Nat} (i : Fin n) : Conf n := fun s => if s = i then .hole else .up

theorem holeAt_inj {n : Nat} {i j : Fin n} (h : holeAt i = holeAt j) : i = j := by
  have := congrFun h i
  unfold holeAt at this
  rw [if_pos rfl] at this
  by_contra hne
  rw [if_neg hne] at this
  exact Occ.noConfusion this

theorem exch_holeAt {n : Nat} (i b : Fin n) : exch (holeAt i) i b = holeAt b := by
  funext s
  unfold exch holeAt
  by_cases h : s = b
  · rw [h, Equiv.swap_apply_right, if_pos rfl, if_pos rfl]
  · rw [if_neg h, if_neg]
    intro h'
    exact h (by have := congrArg (Equiv.swap i b) h'; rwa [Equiv.swap_apply_self, Equiv.swap_apply_left] at this)

section
variable {n : Nat} (I : Interactions ℝ) (pos : Fin n → Pt)

theorem hole_iff {i a : Fin n} : holeAt i a = .hole ↔ a = i := by
  unfold holeAt
  split_ifs with h <;> simp [h]

theorem hopEl_hole (i j : Fin n) : hopEl I pos (holeAt i) (holeAt j) = if Near (pos i) (pos j) then I.t else 0 := by
  unfold hopEl
  rw [Finset.sum_eq_single i, Finset.sum_eq_single j]
  · have : (holeAt i i = Occ.hole ∧ holeAt i j ≠ Occ.hole ∧ Near (pos i) (pos j) ∧ holeAt j = exch (holeAt i) i j) ↔ Near (pos i) (pos j) := by
      rw [exch_holeAt, Ne, hole_iff, hole_iff]
      refine ⟨fun h => h.2.2.1, fun h => ⟨rfl, ?_, h, rfl⟩⟩
      rintro rfl
      unfold Near at h
      simp at h
    simp only [this]
  · intro b _ hb
    rw [if_neg]
    rintro ⟨_, _, _, h⟩
    rw [exch_holeAt] at h
    exact hb (holeAt_inj h).symm
  · simp
  · intro a _ ha
    refine Finset.sum_eq_zero fun b _ => if_neg ?_
    rintro ⟨h, _⟩
    exact ha (hole_iff.1 h)
  · simp

theorem nextEl_hole (i j : Fin n) : nextEl I pos (holeAt i) (holeAt j) =
    if i ≠ j ∧ ∃ m, Near (pos i) (pos m) ∧ Near (pos m) (pos j) then
      (if (pos i).1 = (pos j).1 ∨ (pos i).2 = (pos j).2 then I.tnNNN else I.tNNN) else 0 := by
  unfold nextEl
  rw [Finset.sum_eq_single i, Finset.sum_eq_single j]
  · have : (holeAt i i = Occ.hole ∧ holeAt i j ≠ Occ.hole ∧ (∃ m, Near (pos i) (pos m) ∧ Near (pos m) (pos j)) ∧
        holeAt j = exch (holeAt i) i j) ↔ i ≠ j ∧ ∃ m, Near (pos i) (pos m) ∧ Near (pos m) (pos j) := by
      rw [exch_holeAt, Ne, hole_iff, hole_iff]
      exact ⟨fun h => ⟨Ne.symm h.2.1, h.2.2.1⟩, fun h => ⟨rfl, Ne.symm h.1, h.2, rfl⟩⟩
    simp only [this]
  · intro b _ hb
    rw [if_neg]
    rintro ⟨_, _, _, h⟩
    rw [exch_holeAt] at h
    exact hb (holeAt_inj h).symm
  · simp
  · intro a _ ha
    refine Finset.sum_eq_zero fun b _ => if_neg ?_
    rintro ⟨h, _⟩
    exact ha (hole_iff.1 h)
  · simp

theorem up_of_ne {i a : Fin n} (h : holeAt i a ≠ .hole) : holeAt i a = .up := by
  unfold holeAt at h ⊢
  split_ifs at h ⊢
  · exact absurd rfl h
  · rfl

theorem staticEl_hole (i j : Fin n) : staticEl I pos (holeAt i) (holeAt j) = 0 := by
  unfold staticEl
  split_ifs
  · refine Finset.sum_eq_zero fun a _ => Finset.sum_eq_zero fun b _ => ?_
    split_ifs with h
    · rw [up_of_ne h.2.2.1, up_of_ne h.2.2.2]
      show _ * ((1 / 2 : ℝ) * (1 / 2) - 1 / 4) = 0
      ring
    · rfl
  · rfl

theorem flipEl_hole (i j : Fin n) : flipEl I pos (holeAt i) (holeAt j) = 0 := by
  unfold flipEl
  refine Finset.sum_eq_zero fun a _ => Finset.sum_eq_zero fun b _ => if_neg ?_
  rintro ⟨_, _, h1, h2, h3, _⟩
  exact h3 (by rw [up_of_ne h1, up_of_ne h2])

theorem sdEl_hole (i j : Fin n) : sdEl I pos (holeAt i) (holeAt j) = 0 := by
  unfold sdEl
  refine Finset.sum_eq_zero fun a _ => Finset.sum_eq_zero fun m _ => Finset.sum_eq_zero fun b _ => if_neg ?_
  rintro ⟨_, h1, h2, _⟩
  rw [up_of_ne h1] at h2
  by_cases hb : holeAt i b = .hole
  · rw [hb] at h2; exact Occ.noConfusion h2
  · rw [up_of_ne hb] at h2; exact Occ.noConfusion h2

theorem repEl_hole (i j : Fin n) : repEl I pos (holeAt i) (holeAt j) = 0 := by
  unfold repEl
  split_ifs
  · refine Finset.sum_eq_zero fun a _ => Finset.sum_eq_zero fun b _ => if_neg ?_
    rintro ⟨h1, h2, h3⟩
    rw [hole_iff.1 h2, hole_iff.1 h3] at h1
    exact lt_irrefl _ h1
  · rfl

end

/-! ### Sines -/

/-- The `p`-th standing wave on a path of `W` sites (`p` and `x` counted from 0). -/
noncomputable def wave (W p x : Nat) : ℝ := Real.sin (Real.pi * (p + 1) * (x + 1) / (W + 1))

/-- Its energy. -/
noncomputable def waveCos (W p : Nat) : ℝ := Real.cos (Real.pi * (p + 1) / (W + 1))

/-- Neighbours on a path. -/
def pathEl (x y : Nat) : ℝ := if x + 1 = y ∨ y + 1 = x then 1 else 0

theorem wave_eigen (W p x : Nat) (hx : x < W) : ∑ y ∈ range W, pathEl x y * wave W p y = 2 * waveCos W p * wave W p x := by
  have hW : ((W : ℝ) + 1) ≠ 0 := by positivity
  set θ : ℝ := Real.pi * (p + 1) / (W + 1) with hθ
  have hw : ∀ y : Nat, wave W p y = Real.sin (θ * (y + 1)) := by
    intro y
    unfold wave
    rw [hθ]
    congr 1
    ring
  have hc : waveCos W p = Real.cos θ := rfl
  have e : ∀ y ∈ range W, pathEl x y * wave W p y = (if y = x + 1 then wave W p y else 0) + (if y + 1 = x then wave W p y else 0) := by
    intro y _
    unfold pathEl
    by_cases h1 : y = x + 1
    · rw [if_pos (Or.inl h1.symm), if_pos h1, if_neg (show ¬ y + 1 = x by omega)]; ring
    · by_cases h2 : y + 1 = x
      · rw [if_pos (Or.inr h2), if_neg h1, if_pos h2]; ring
      · rw [if_neg (show ¬ (x + 1 = y ∨ y + 1 = x) by omega), if_neg h1, if_neg h2]; ring
  have right : ∑ y ∈ range W, (if y = x + 1 then wave W p y else 0) = Real.sin (θ * (x + 2)) := by
    rw [Finset.sum_ite_eq' (range W) (x + 1)]
    split_ifs with h
    · rw [hw]; push_cast; ring_nf
    · have hxW : x + 1 = W := by rw [mem_range] at h; omega
      have : θ * ((x : ℝ) + 2) = ((p + 1 : Nat) : ℝ) * Real.pi := by
        have hx' : (x : ℝ) + 2 = W + 1 := by rw [← hxW]; push_cast; ring
        rw [hx', hθ]
        push_cast
        field_simp
      rw [this, Real.sin_nat_mul_pi]
  have left : ∑ y ∈ range W, (if y + 1 = x then wave W p y else 0) = Real.sin (θ * x) := by
    rcases x with _ | x
    · simp
    · have : ∀ y ∈ range W, (if y + 1 = x + 1 then wave W p y else 0) = if y = x then wave W p y else 0 := by
        intro y _
        simp only [Nat.add_right_cancel_iff]
      rw [Finset.sum_congr rfl this, Finset.sum_ite_eq' (range W) x, if_pos (mem_range.2 (by omega)), hw]
      push_cast
      rfl
  rw [Finset.sum_congr rfl e, Finset.sum_add_distrib, right, left, hw, hc]
  have a : θ * ((x : ℝ) + 2) = θ * (x + 1) + θ := by ring
  have b : θ * (x : ℝ) = θ * (x + 1) - θ := by ring
  rw [a, b, Real.sin_add, Real.sin_sub]
  ring

theorem waveCos_lt {W p q : Nat} (hq : q < W) (h : p < q) : waveCos W q < waveCos W p := by
  have hW : (0 : ℝ) < (W : ℝ) + 1 := by positivity
  unfold waveCos
  apply Real.cos_lt_cos_of_nonneg_of_le_pi
  · positivity
  · rw [div_le_iff₀ hW]
    have : (q : ℝ) + 1 ≤ (W : ℝ) + 1 := by exact_mod_cast Nat.succ_le_succ hq.le
    exact mul_le_mul_of_nonneg_left this Real.pi_pos.le
  · rw [div_lt_div_iff_of_pos_right hW]
    have : (p : ℝ) + 1 < (q : ℝ) + 1 := by exact_mod_cast Nat.succ_lt_succ h
    exact mul_lt_mul_of_pos_left this Real.pi_pos

theorem waveCos_inj {W p q : Nat} (hp : p < W) (hq : q < W) (h : waveCos W p = waveCos W q) : p = q := by
  rcases Nat.lt_trichotomy p q with h1 | h1 | h1
  · exact absurd h (ne_of_gt (waveCos_lt hq h1))
  · exact h1
  · exact absurd h (ne_of_lt (waveCos_lt hp h1))

theorem wave_pos (W p : Nat) (hp : p < W) : 0 < wave W p 0 := by
  have hW : (0 : ℝ) < (W : ℝ) + 1 := by positivity
  unfold wave
  apply Real.sin_pos_of_pos_of_lt_pi
  · have := Real.pi_pos; positivity
  · rw [div_lt_iff₀ hW]
    have : ((p : ℝ) + 1) * (((0 : Nat) : ℝ) + 1) < (W : ℝ) + 1 := by
      rw [Nat.cast_zero, zero_add, mul_one]
      exact_mod_cast Nat.succ_lt_succ hp
    rw [mul_assoc]
    exact mul_lt_mul_of_pos_left this Real.pi_pos

/-- The standing waves are complete. -/
theorem wave_complete (W : Nat) (u : Nat → ℝ) (h : ∀ p < W, ∑ x ∈ range W, u x * wave W p x = 0) : ∀ x < W, u x = 0 := by
  classical
  set P : Matrix (Fin W) (Fin W) ℝ := Matrix.of (fun x y => pathEl x y) with hP
  set v : Fin W → Fin W → ℝ := fun p x => wave W p x with hv
  have heig : ∀ p : Fin W, Module.End.HasEigenvector (Matrix.toLin' P) (2 * waveCos W p) (v p) := by
    intro p
    refine ⟨?_, ?_⟩
    · rw [Module.End.mem_eigenspace_iff, Matrix.toLin'_apply]
      funext x
      have := wave_eigen W p x x.2
      rw [Finset.sum_range] at this
      simp only [Matrix.mulVec, dotProduct, Pi.smul_apply, smul_eq_mul, hP, Matrix.of_apply, hv]
      exact this
    · intro h0
      have := congrFun h0 ⟨0, by have := p.2; omega⟩
      simp only [hv, Pi.zero_apply] at this
      exact absurd this (ne_of_gt (wave_pos W p p.2))
  have hind : LinearIndependent ℝ v := by
    refine Module.End.eigenvectors_linearIndependent' (Matrix.toLin' P) (fun p : Fin W => 2 * waveCos W p) ?_ v heig
    intro p q hpq
    exact Fin.ext (waveCos_inj p.2 q.2 (by simpa using hpq))
  have hunit : IsUnit (Matrix.of v) := Matrix.linearIndependent_rows_iff_isUnit.1 hind
  have hz : (Matrix.of v).mulVec (fun x : Fin W => u x) = 0 := by
    funext p
    have := h p p.2
    rw [Finset.sum_range] at this
    simp only [Matrix.mulVec, dotProduct, Matrix.of_apply, hv, Pi.zero_apply]
    rw [← this]
    exact Finset.sum_congr rfl fun x _ => mul_comm _ _
  have hinj := Matrix.mulVec_injective_iff_isUnit.2 hunit
  have h0 : (fun x : Fin W => u x) = 0 := hinj (by rw [hz, Matrix.mulVec_zero])
  intro x hx
  exact congrFun h0 ⟨x, hx⟩

/-! ### Rectangles -/

theorem sum_grid (W H : Nat) (hW : 0 < W) (f : Nat → Nat → ℝ) :
    ∑ j ∈ range (W * H), f (j % W) (j / W) = ∑ x ∈ range W, ∑ y ∈ range H, f x y := by
  rw [← Finset.sum_product']
  refine Finset.sum_nbij' (fun j => (j % W, j / W)) (fun p => p.1 + W * p.2) ?_ ?_ ?_ ?_ ?_
  · intro j hj
    rw [mem_range] at hj
    rw [mem_product, mem_range, mem_range]
    exact ⟨Nat.mod_lt _ hW, Nat.div_lt_of_lt_mul hj⟩
  · rintro ⟨x, y⟩ hp
    rw [mem_product, mem_range, mem_range] at hp
    rw [mem_range]
    simp only at hp ⊢
    have : W * (y + 1) ≤ W * H := Nat.mul_le_mul_left W hp.2
    rw [Nat.mul_add, Nat.mul_one] at this
    omega
  · intro j _
    exact Nat.mod_add_div j W
  · rintro ⟨x, y⟩ hp
    rw [mem_product, mem_range, mem_range] at hp
    simp only at hp ⊢
    rw [Nat.add_mul_mod_self_left, Nat.mod_eq_of_lt hp.1, Nat.add_mul_div_left _ _ hW, Nat.div_eq_of_lt hp.1, Nat.zero_add]
  · intro j _
    rfl

/-- Matrix element of a particle that hops on the rectangle with amplitudes `a` (neighbours) and `b` (diagonals). -/
noncomputable def planeEl (a b : ℝ) (x y x' y' : Nat) : ℝ :=
  a * (pathEl x x' * (if y = y' then 1 else 0) + (if x = x' then 1 else 0) * pathEl y y') + b * (pathEl x x' * pathEl y y')

theorem plane_eigen (a b : ℝ) (W H p q x y : Nat) (hx : x < W) (hy : y < H) :
    ∑ x' ∈ range W, ∑ y' ∈ range H, planeEl a b x y x' y' * (wave W p x' * wave H q y') =
      (a * (2 * waveCos W p + 2 * waveCos H q) + b * (4 * waveCos W p * waveCos H q)) * (wave W p x * wave H q y) := by
  have e : ∀ x' ∈ range W, ∑ y' ∈ range H, planeEl a b x y x' y' * (wave W p x' * wave H q y') =
      a * wave H q y * (pathEl x x' * wave W p x') + a * (2 * waveCos H q * wave H q y) * (if x = x' then wave W p x' else 0) +
        b * (2 * waveCos H q * wave H q y) * (pathEl x x' * wave W p x') := by
    intro x' _
    have e1 : ∀ y' ∈ range H, planeEl a b x y x' y' * (wave W p x' * wave H q y') =
        a * pathEl x x' * wave W p x' * (if y = y' then wave H q y' else 0) +
        a * (if x = x' then wave W p x' else 0) * (pathEl y y' * wave H q y') + b * (pathEl x x' * wave W p x') * (pathEl y y' * wave H q y') := by
      intro y' _
      unfold planeEl
      split_ifs <;> ring
    rw [Finset.sum_congr rfl e1, Finset.sum_add_distrib, Finset.sum_add_distrib, ← Finset.mul_sum, ← Finset.mul_sum, ← Finset.mul_sum,
      wave_eigen H q y hy, Finset.sum_ite_eq (range H) y, if_pos (mem_range.2 hy)]
    ring
  rw [Finset.sum_congr rfl e, Finset.sum_add_distrib, Finset.sum_add_distrib, ← Finset.mul_sum, ← Finset.mul_sum, ← Finset.mul_sum,
    wave_eigen W p x hx, Finset.sum_ite_eq (range W) x, if_pos (mem_range.2 hx)]
  ring

/-- A function on the rectangle orthogonal to all products of standing waves is zero. -/
theorem plane_complete (W H : Nat) (u : Nat → Nat → ℝ)
    (h : ∀ p < W, ∀ q < H, ∑ x ∈ range W, ∑ y ∈ range H, u x y * (wave W p x * wave H q y) = 0) :
    ∀ x < W, ∀ y < H, u x y = 0 := by
  intro x hx
  apply wave_complete H (u x)
  intro q hq
  refine wave_complete W (fun x => ∑ y ∈ range H, u x y * wave H q y) ?_ x hx
  intro p hp
  rw [← h p hp q hq]
  refine Finset.sum_congr rfl fun x _ => ?_
  rw [Finset.sum_mul]
  exact Finset.sum_congr rfl fun y _ => by ring

end TJ
