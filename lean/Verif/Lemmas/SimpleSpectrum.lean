/-
When the spectrum of a bond matrix is simple: an eigenfunction of two joined blocks is
determined by one number.
-/
import Verif.Lemmas.Clusters
import Mathlib.Tactic.LinearCombination
import Mathlib.Tactic.FieldSimp
import Mathlib.Tactic.IntervalCases

namespace TJ

open Matrix Finset

section

variable {K : Type} [Field K] [LinearOrder K] [IsStrictOrderedRing K]

/-- `h` is an eigenfunction of the `n x n` matrix `A` to `l`. -/
def EigenFn (n : Nat) (A : Nat → Nat → Int) (l : K) (h : Nat → K) : Prop :=
  ∀ i < n, ∑ j ∈ range n, (A i j : K) * h j = l * h i

theorem EighOf.col_orth {n : Nat} {A : Nat → Nat → Int} {U : Nat → Nat → K} {d : Nat → K} (h : EighOf n A U d)
    (k : Nat) (hk : k < n) (l : Nat) (hl : l < n) : ∑ i ∈ range n, U i k * U i l = if k = l then 1 else 0 := by
  have h1 : (finMat n U) * (finMat n U)ᵀ = 1 := h.mat.1
  have h3 : (finMat n U)ᵀ * (finMat n U) = 1 := mul_eq_one_comm.1 h1
  have h2 := congrFun (congrFun h3 ⟨k, hk⟩) ⟨l, hl⟩
  rw [Matrix.mul_apply, Matrix.one_apply] at h2
  rw [Finset.sum_range]
  simpa [finMat, Matrix.transpose_apply] using h2

theorem EighOf.col_eigen {n : Nat} {A : Nat → Nat → Int} {U : Nat → Nat → K} {d : Nat → K} (h : EighOf n A U d)
    (k : Nat) (hk : k < n) : EigenFn n A (d k) (fun i => U i k) := by
  intro i hi
  have e : ∀ j ∈ range n, (A i j : K) * U j k = ∑ m ∈ range n, U i m * (d m * (U j m * U j k)) := by
    intro j hj
    rw [h.diag i hi j (mem_range.1 hj), Finset.sum_mul]
    exact Finset.sum_congr rfl (fun m _ => by ring)
  rw [Finset.sum_congr rfl e, Finset.sum_comm]
  have e2 : ∀ m ∈ range n, ∑ j ∈ range n, U i m * (d m * (U j m * U j k)) = if m = k then d k * U i k else 0 := by
    intro m hm
    rw [← Finset.mul_sum, ← Finset.mul_sum, h.col_orth m (mem_range.1 hm) k hk]
    split_ifs with hmk
    · subst hmk; ring
    · ring
  rw [Finset.sum_congr rfl e2, Finset.sum_ite_eq' (range n) k, if_pos (mem_range.2 hk)]

/-- If the eigenfunctions to each number are determined by one linear coordinate, the spectrum is simple. -/
theorem simple_of_coordinate {n : Nat} {A : Nat → Nat → Int} {U : Nat → Nat → K} {d : Nat → K} (h : EighOf n A U d)
    (hc : ∀ l : K, ∃ c : Nat → K, ∀ f, EigenFn n A l f → ∑ j ∈ range n, c j * f j = 0 → ∀ i < n, f i = 0)
    (k : Nat) (hk : k < n) (l : Nat) (hl : l < n) (hd : d k = d l) : k = l := by
  by_contra hne
  obtain ⟨c, hc⟩ := hc (d k)
  have fk := h.col_eigen k hk
  have fl := h.col_eigen l hl
  rw [← hd] at fl
  set a := ∑ j ∈ range n, c j * U j k with ha
  set b := ∑ j ∈ range n, c j * U j l with hb
  have hnk : ∑ i ∈ range n, U i k * U i k = 1 := by rw [h.col_orth k hk k hk, if_pos rfl]
  have hkl : ∑ i ∈ range n, U i l * U i k = 0 := by rw [h.col_orth l hl k hk, if_neg (Ne.symm hne)]
  have hll : ∑ i ∈ range n, U i l * U i l = 1 := by rw [h.col_orth l hl l hl, if_pos rfl]
  have z : ∀ i < n, b * U i k - a * U i l = 0 := by
    apply hc (fun i => b * U i k - a * U i l)
    · intro i hi
      have e : ∀ j ∈ range n, (A i j : K) * (b * U j k - a * U j l) = b * ((A i j : K) * U j k) - a * ((A i j : K) * U j l) :=
        fun j _ => by ring
      rw [Finset.sum_congr rfl e, Finset.sum_sub_distrib, ← Finset.mul_sum, ← Finset.mul_sum, fk i hi, fl i hi]
      ring
    · have e : ∀ j ∈ range n, c j * (b * U j k - a * U j l) = b * (c j * U j k) - a * (c j * U j l) :=
        fun j _ => by ring
      rw [Finset.sum_congr rfl e, Finset.sum_sub_distrib, ← Finset.mul_sum, ← Finset.mul_sum, ← ha, ← hb]
      ring
  have hb0 : b = 0 := by
    have : ∑ i ∈ range n, (b * U i k - a * U i l) * U i k = 0 :=
      Finset.sum_eq_zero (fun i hi => by rw [z i (mem_range.1 hi), zero_mul])
    have e : ∀ j ∈ range n, (b * U j k - a * U j l) * U j k = b * (U j k * U j k) - a * (U j l * U j k) :=
      fun j _ => by ring
    rw [Finset.sum_congr rfl e, Finset.sum_sub_distrib, ← Finset.mul_sum, ← Finset.mul_sum, hnk, hkl] at this
    linarith
  have hz := hc (fun i => U i l) fl (by rw [← hb]; exact hb0)
  rw [Finset.sum_eq_zero (fun i hi => by rw [hz i (mem_range.1 hi), zero_mul])] at hll
  exact zero_ne_one hll

omit [LinearOrder K] [IsStrictOrderedRing K] in
/-- An eigenfunction of a matrix whose entries mark the neighbours of the positions `pos`. -/
theorem EigenFn.near {n : Nat} {A : Nat → Nat → Int} {l : K} {f : Nat → K} (h : EigenFn n A l f) (pos : Nat → Pt)
    (hA : ∀ i < n, ∀ j < n, (A i j = 1 ↔ Near (pos i) (pos j)) ∧ (A i j = 0 ∨ A i j = 1)) (i : Nat) (hi : i < n) :
    ∑ j ∈ (range n).filter (fun j => Near (pos i) (pos j)), f j = l * f i := by
  rw [← h i hi, Finset.sum_filter]
  apply Finset.sum_congr rfl
  intro j hj
  obtain ⟨a, b⟩ := hA i hi j (mem_range.1 hj)
  split_ifs with hN
  · rw [a.2 hN]; simp
  · rcases b with b | b
    · rw [b]; simp
    · exact absurd (a.1 b) hN

/-- Site `i` of two joined rows. -/
theorem twoPos_row (W i : Nat) (hi : i < 2 * W) : twoPos W 1 i = ((i : Int), 0) := by
  unfold twoPos gridPos
  rw [Nat.mul_one]
  split_ifs with h
  · rw [Nat.mod_eq_of_lt h, Nat.div_eq_of_lt h]; rfl
  · rw [Nat.mod_eq_of_lt (by omega), Nat.div_eq_of_lt (by omega)]
    ext
    · simp only; omega
    · rfl

omit [LinearOrder K] [IsStrictOrderedRing K] in
/-- An eigenfunction of a path that vanishes at its first site vanishes. -/
theorem path_zero (W : Nat) {l : K} {f : Nat → K}
    (h : ∀ i < 2 * W, ∑ j ∈ (range (2 * W)).filter (fun j => Near (twoPos W 1 i) (twoPos W 1 j)), f j = l * f i)
    (h0 : f 0 = 0) : ∀ i < 2 * W, f i = 0 := by
  have key : ∀ i, i + 1 < 2 * W → f i = 0 ∧ f (i + 1) = 0 := by
    intro i
    induction i with
    | zero =>
      intro hi
      refine ⟨h0, ?_⟩
      have e := h 0 (by omega)
      have hf : (range (2 * W)).filter (fun j => Near (twoPos W 1 0) (twoPos W 1 j)) = {1} := by
        ext j
        simp only [mem_filter, mem_range, mem_singleton]
        constructor
        · rintro ⟨hj, hn⟩
          rw [twoPos_row W 0 (by omega), twoPos_row W j hj] at hn
          unfold Near at hn
          simp only at hn
          omega
        · rintro rfl
          refine ⟨by omega, ?_⟩
          rw [twoPos_row W 0 (by omega), twoPos_row W 1 (by omega)]
          decide
      rw [hf, Finset.sum_singleton, h0, mul_zero] at e
      exact e
    | succ i ih =>
      intro hi
      obtain ⟨a, b⟩ := ih (by omega)
      refine ⟨b, ?_⟩
      have e := h (i + 1) (by omega)
      have hf : (range (2 * W)).filter (fun j => Near (twoPos W 1 (i + 1)) (twoPos W 1 j)) = {i, i + 1 + 1} := by
        ext j
        simp only [mem_filter, mem_range, mem_insert, mem_singleton]
        constructor
        · rintro ⟨hj, hn⟩
          rw [twoPos_row W (i + 1) (by omega), twoPos_row W j hj] at hn
          unfold Near at hn
          simp only at hn
          omega
        · intro hj
          refine ⟨by omega, ?_⟩
          rw [twoPos_row W (i + 1) (by omega), twoPos_row W j (by omega)]
          unfold Near
          simp only
          omega
      rw [hf, Finset.sum_pair (by omega), a, b, mul_zero, zero_add] at e
      exact e
  intro i hi
  rcases i with _ | i
  · exact h0
  · exact (key i hi).2

omit [LinearOrder K] [IsStrictOrderedRing K] in
/-- The equations of an eigenfunction of two joined 2×2 blocks. -/
theorem square2_system {l : K} {f : Nat → K}
    (h : ∀ i < 8, ∑ j ∈ (range 8).filter (fun j => Near (twoPos 2 2 i) (twoPos 2 2 j)), f j = l * f i) :
    f 1 + f 2 = l * f 0 ∧
    f 0 + f 3 + f 4 = l * f 1 ∧
    f 0 + f 3 = l * f 2 ∧
    f 1 + f 2 + f 6 = l * f 3 ∧
    f 1 + f 5 + f 6 = l * f 4 ∧
    f 4 + f 7 = l * f 5 ∧
    f 3 + f 4 + f 7 = l * f 6 ∧
    f 5 + f 6 = l * f 7 := by
  have e0 := h 0 (by decide)
  rw [show (range 8).filter (fun j => Near (twoPos 2 2 0) (twoPos 2 2 j)) = {1, 2} from by decide] at e0
  have e1 := h 1 (by decide)
  rw [show (range 8).filter (fun j => Near (twoPos 2 2 1) (twoPos 2 2 j)) = {0, 3, 4} from by decide] at e1
  have e2 := h 2 (by decide)
  rw [show (range 8).filter (fun j => Near (twoPos 2 2 2) (twoPos 2 2 j)) = {0, 3} from by decide] at e2
  have e3 := h 3 (by decide)
  rw [show (range 8).filter (fun j => Near (twoPos 2 2 3) (twoPos 2 2 j)) = {1, 2, 6} from by decide] at e3
  have e4 := h 4 (by decide)
  rw [show (range 8).filter (fun j => Near (twoPos 2 2 4) (twoPos 2 2 j)) = {1, 5, 6} from by decide] at e4
  have e5 := h 5 (by decide)
  rw [show (range 8).filter (fun j => Near (twoPos 2 2 5) (twoPos 2 2 j)) = {4, 7} from by decide] at e5
  have e6 := h 6 (by decide)
  rw [show (range 8).filter (fun j => Near (twoPos 2 2 6) (twoPos 2 2 j)) = {3, 4, 7} from by decide] at e6
  have e7 := h 7 (by decide)
  rw [show (range 8).filter (fun j => Near (twoPos 2 2 7) (twoPos 2 2 j)) = {5, 6} from by decide] at e7
  simp only [Finset.sum_insert, Finset.sum_singleton, mem_insert, mem_singleton, Nat.reduceEqDiff, or_self,
    not_false_eq_true, OfNat.zero_ne_ofNat, OfNat.one_ne_ofNat] at e0 e1 e2 e3 e4 e5 e6 e7
  refine ⟨?_, ?_, ?_, ?_, ?_, ?_, ?_, ?_⟩
  · linear_combination e0
  · linear_combination e1
  · linear_combination e2
  · linear_combination e3
  · linear_combination e4
  · linear_combination e5
  · linear_combination e6
  · linear_combination e7

omit [LinearOrder K] [IsStrictOrderedRing K] in
/-- The equations of an eigenfunction of two joined 3×3 blocks. -/
theorem square3_system {l : K} {f : Nat → K}
    (h : ∀ i < 18, ∑ j ∈ (range 18).filter (fun j => Near (twoPos 3 3 i) (twoPos 3 3 j)), f j = l * f i) :
    f 1 + f 3 = l * f 0 ∧
    f 0 + f 2 + f 4 = l * f 1 ∧
    f 1 + f 5 + f 9 = l * f 2 ∧
    f 0 + f 4 + f 6 = l * f 3 ∧
    f 1 + f 3 + f 5 + f 7 = l * f 4 ∧
    f 2 + f 4 + f 8 + f 12 = l * f 5 ∧
    f 3 + f 7 = l * f 6 ∧
    f 4 + f 6 + f 8 = l * f 7 ∧
    f 5 + f 7 + f 15 = l * f 8 ∧
    f 2 + f 10 + f 12 = l * f 9 ∧
    f 9 + f 11 + f 13 = l * f 10 ∧
    f 10 + f 14 = l * f 11 ∧
    f 5 + f 9 + f 13 + f 15 = l * f 12 ∧
    f 10 + f 12 + f 14 + f 16 = l * f 13 ∧
    f 11 + f 13 + f 17 = l * f 14 ∧
    f 8 + f 12 + f 16 = l * f 15 ∧
    f 13 + f 15 + f 17 = l * f 16 ∧
    f 14 + f 16 = l * f 17 := by
  have e0 := h 0 (by decide)
  rw [show (range 18).filter (fun j => Near (twoPos 3 3 0) (twoPos 3 3 j)) = {1, 3} from by decide] at e0
  have e1 := h 1 (by decide)
  rw [show (range 18).filter (fun j => Near (twoPos 3 3 1) (twoPos 3 3 j)) = {0, 2, 4} from by decide] at e1
  have e2 := h 2 (by decide)
  rw [show (range 18).filter (fun j => Near (twoPos 3 3 2) (twoPos 3 3 j)) = {1, 5, 9} from by decide] at e2
  have e3 := h 3 (by decide)
  rw [show (range 18).filter (fun j => Near (twoPos 3 3 3) (twoPos 3 3 j)) = {0, 4, 6} from by decide] at e3
  have e4 := h 4 (by decide)
  rw [show (range 18).filter (fun j => Near (twoPos 3 3 4) (twoPos 3 3 j)) = {1, 3, 5, 7} from by decide] at e4
  have e5 := h 5 (by decide)
  rw [show (range 18).filter (fun j => Near (twoPos 3 3 5) (twoPos 3 3 j)) = {2, 4, 8, 12} from by decide] at e5
  have e6 := h 6 (by decide)
  rw [show (range 18).filter (fun j => Near (twoPos 3 3 6) (twoPos 3 3 j)) = {3, 7} from by decide] at e6
  have e7 := h 7 (by decide)
  rw [show (range 18).filter (fun j => Near (twoPos 3 3 7) (twoPos 3 3 j)) = {4, 6, 8} from by decide] at e7
  have e8 := h 8 (by decide)
  rw [show (range 18).filter (fun j => Near (twoPos 3 3 8) (twoPos 3 3 j)) = {5, 7, 15} from by decide] at e8
  have e9 := h 9 (by decide)
  rw [show (range 18).filter (fun j => Near (twoPos 3 3 9) (twoPos 3 3 j)) = {2, 10, 12} from by decide] at e9
  have e10 := h 10 (by decide)
  rw [show (range 18).filter (fun j => Near (twoPos 3 3 10) (twoPos 3 3 j)) = {9, 11, 13} from by decide] at e10
  have e11 := h 11 (by decide)
  rw [show (range 18).filter (fun j => Near (twoPos 3 3 11) (twoPos 3 3 j)) = {10, 14} from by decide] at e11
  have e12 := h 12 (by decide)
  rw [show (range 18).filter (fun j => Near (twoPos 3 3 12) (twoPos 3 3 j)) = {5, 9, 13, 15} from by decide] at e12
  have e13 := h 13 (by decide)
  rw [show (range 18).filter (fun j => Near (twoPos 3 3 13) (twoPos 3 3 j)) = {10, 12, 14, 16} from by decide] at e13
  have e14 := h 14 (by decide)
  rw [show (range 18).filter (fun j => Near (twoPos 3 3 14) (twoPos 3 3 j)) = {11, 13, 17} from by decide] at e14
  have e15 := h 15 (by decide)
  rw [show (range 18).filter (fun j => Near (twoPos 3 3 15) (twoPos 3 3 j)) = {8, 12, 16} from by decide] at e15
  have e16 := h 16 (by decide)
  rw [show (range 18).filter (fun j => Near (twoPos 3 3 16) (twoPos 3 3 j)) = {13, 15, 17} from by decide] at e16
  have e17 := h 17 (by decide)
  rw [show (range 18).filter (fun j => Near (twoPos 3 3 17) (twoPos 3 3 j)) = {14, 16} from by decide] at e17
  simp only [Finset.sum_insert, Finset.sum_singleton, mem_insert, mem_singleton, Nat.reduceEqDiff, or_self,
    not_false_eq_true, OfNat.zero_ne_ofNat, OfNat.one_ne_ofNat] at e0 e1 e2 e3 e4 e5 e6 e7 e8 e9 e10 e11 e12 e13 e14 e15 e16 e17
  refine ⟨?_, ?_, ?_, ?_, ?_, ?_, ?_, ?_, ?_, ?_, ?_, ?_, ?_, ?_, ?_, ?_, ?_, ?_⟩
  · linear_combination e0
  · linear_combination e1
  · linear_combination e2
  · linear_combination e3
  · linear_combination e4
  · linear_combination e5
  · linear_combination e6
  · linear_combination e7
  · linear_combination e8
  · linear_combination e9
  · linear_combination e10
  · linear_combination e11
  · linear_combination e12
  · linear_combination e13
  · linear_combination e14
  · linear_combination e15
  · linear_combination e16
  · linear_combination e17

omit [LinearOrder K] [IsStrictOrderedRing K] in
/-- A path of four sites. -/
theorem path_four {m a b c d : K} (h0 : b = m * a) (h1 : a + c = m * b) (h2 : b + d = m * c) (h3 : c = m * d)
    (h : m ^ 4 - 3 * m ^ 2 + 1 ≠ 0 ∨ a = 0) : a = 0 ∧ b = 0 ∧ c = 0 ∧ d = 0 := by
  have ha : a = 0 := by
    rcases h with h | h
    · have : (m ^ 4 - 3 * m ^ 2 + 1) * a = 0 := by
        linear_combination -(m ^ 3 - 2 * m) * h0 - (m ^ 2 - 1) * h1 - m * h2 - h3
      exact (mul_eq_zero.1 this).resolve_left h
    · exact h
  have hb : b = 0 := by rw [h0, ha, mul_zero]
  have hc : c = 0 := by linear_combination h1 + m * hb - ha
  have hd : d = 0 := by linear_combination h2 + m * hc - hb
  exact ⟨ha, hb, hc, hd⟩

/-- An eigenfunction of two joined 2×2 blocks is determined by one number. -/
theorem square2_coordinate (l : K) : ∃ c : Nat → K, ∀ f : Nat → K,
    (∀ i < 8, ∑ j ∈ (range 8).filter (fun j => Near (twoPos 2 2 i) (twoPos 2 2 j)), f j = l * f i) →
    ∑ j ∈ range 8, c j * f j = 0 → ∀ i < 8, f i = 0 := by
  have fin : ∀ f : Nat → K,
      (∀ i < 8, ∑ j ∈ (range 8).filter (fun j => Near (twoPos 2 2 i) (twoPos 2 2 j)), f j = l * f i) →
      ((l - 1) ^ 4 - 3 * (l - 1) ^ 2 + 1 ≠ 0 ∨ f 0 + f 2 = 0) → ((l + 1) ^ 4 - 3 * (l + 1) ^ 2 + 1 ≠ 0 ∨ f 0 - f 2 = 0) →
      ∀ i < 8, f i = 0 := by
    intro f h hs ha
    obtain ⟨e0, e1, e2, e3, e4, e5, e6, e7⟩ := square2_system h
    obtain ⟨s0, s1, s2, s3⟩ := path_four (m := l - 1) (a := f 0 + f 2) (b := f 1 + f 3) (c := f 4 + f 6) (d := f 5 + f 7)
      (by linear_combination e0 + e2) (by linear_combination e1 + e3) (by linear_combination e4 + e6)
      (by linear_combination e5 + e7) hs
    obtain ⟨a0, a1, a2, a3⟩ := path_four (m := l + 1) (a := f 0 - f 2) (b := f 1 - f 3) (c := f 4 - f 6) (d := f 5 - f 7)
      (by linear_combination e0 - e2) (by linear_combination e1 - e3) (by linear_combination e4 - e6)
      (by linear_combination e5 - e7) ha
    intro i hi
    interval_cases i
    · linarith
    · linarith
    · linarith
    · linarith
    · linarith
    · linarith
    · linarith
    · linarith
  by_cases hp : (l - 1) ^ 4 - 3 * (l - 1) ^ 2 + 1 = 0
  · refine ⟨fun j => if j = 0 then 1 else if j = 2 then 1 else 0, fun f h hc => fin f h (Or.inr ?_) (Or.inl ?_)⟩
    · simp [Finset.sum_range_succ] at hc
      exact hc
    · intro hq
      have : (1 : K) = 0 := by
        linear_combination (-1 / 2 + 23 / 12 * l + 7 / 3 * l ^ 2 + 7 / 12 * l ^ 3) * hp +
          (-1 / 2 - 23 / 12 * l + 7 / 3 * l ^ 2 - 7 / 12 * l ^ 3) * hq
      exact one_ne_zero this
  · refine ⟨fun j => if j = 0 then 1 else if j = 2 then -1 else 0, fun f h hc => fin f h (Or.inl hp) (Or.inr ?_)⟩
    simp [Finset.sum_range_succ] at hc
    linear_combination hc

omit [LinearOrder K] [IsStrictOrderedRing K] in
/-- A path of six sites. -/
theorem path_six {m a b c d e g : K} (h0 : b = m * a) (h1 : a + c = m * b) (h2 : b + d = m * c) (h3 : c + e = m * d)
    (h4 : d + g = m * e) (h5 : e = m * g) (h : m ^ 6 - 5 * m ^ 4 + 6 * m ^ 2 - 1 ≠ 0 ∨ a = 0) :
    a = 0 ∧ b = 0 ∧ c = 0 ∧ d = 0 ∧ e = 0 ∧ g = 0 := by
  have ha : a = 0 := by
    rcases h with h | h
    · have : (m ^ 6 - 5 * m ^ 4 + 6 * m ^ 2 - 1) * a = 0 := by
        linear_combination -(m ^ 5 - 4 * m ^ 3 + 3 * m) * h0 - (m ^ 4 - 3 * m ^ 2 + 1) * h1 - (m ^ 3 - 2 * m) * h2
          - (m ^ 2 - 1) * h3 - m * h4 - h5
      exact (mul_eq_zero.1 this).resolve_left h
    · exact h
  have hb : b = 0 := by rw [h0, ha, mul_zero]
  have hc : c = 0 := by linear_combination h1 + m * hb - ha
  have hd : d = 0 := by linear_combination h2 + m * hc - hb
  have he : e = 0 := by linear_combination h3 + m * hd - hc
  have hg : g = 0 := by linear_combination h4 + m * he - hd
  exact ⟨ha, hb, hc, hd, he, hg⟩

omit [LinearOrder K] [IsStrictOrderedRing K] in
/-- The part of an eigenfunction of the 6×3 lattice symmetric in the outer rows: two conditions on its first column. -/
theorem ladder_six {l s0 s1 s2 s3 s4 s5 m0 m1 m2 m3 m4 m5 : K}
    (a0 : s1 + 2 * m0 = l * s0) (b0 : m1 + s0 = l * m0)
    (a1 : s0 + s2 + 2 * m1 = l * s1) (b1 : m0 + m2 + s1 = l * m1)
    (a2 : s1 + s3 + 2 * m2 = l * s2) (b2 : m1 + m3 + s2 = l * m2)
    (a3 : s2 + s4 + 2 * m3 = l * s3) (b3 : m2 + m4 + s3 = l * m3)
    (a4 : s3 + s5 + 2 * m4 = l * s4) (b4 : m3 + m5 + s4 = l * m4)
    (a5 : s4 + 2 * m5 = l * s5) (b5 : m4 + s5 = l * m5) :
    (l ^ 6 + 25 * l ^ 4 + 6 * l ^ 2 - 1) * s0 - 2 * (6 * l ^ 5 + 20 * l ^ 3 - 4 * l) * m0 = 0 ∧
      (l ^ 6 + 25 * l ^ 4 + 6 * l ^ 2 - 1) * m0 - (6 * l ^ 5 + 20 * l ^ 3 - 4 * l) * s0 = 0 ∧
      (s0 = 0 → m0 = 0 → (s1 = 0 ∧ m1 = 0) ∧ (s2 = 0 ∧ m2 = 0) ∧ (s3 = 0 ∧ m3 = 0) ∧ (s4 = 0 ∧ m4 = 0) ∧ (s5 = 0 ∧ m5 = 0)) := by
  obtain rfl : s1 = l * s0 - 2 * m0 := by linear_combination a0
  obtain rfl : m1 = l * m0 - s0 := by linear_combination b0
  obtain rfl : s2 = l * (l * s0 - 2 * m0) - s0 - 2 * (l * m0 - s0) := by linear_combination a1
  obtain rfl : m2 = l * (l * m0 - s0) - m0 - (l * s0 - 2 * m0) := by linear_combination b1
  have hs3 := eq_sub_of_add_eq' (eq_sub_of_add_eq a2)
  have hm3 := eq_sub_of_add_eq' (eq_sub_of_add_eq b2)
  subst hs3 hm3
  have hs4 := eq_sub_of_add_eq' (eq_sub_of_add_eq a3)
  have hm4 := eq_sub_of_add_eq' (eq_sub_of_add_eq b3)
  subst hs4 hm4
  have hs5 := eq_sub_of_add_eq' (eq_sub_of_add_eq a4)
  have hm5 := eq_sub_of_add_eq' (eq_sub_of_add_eq b4)
  subst hs5 hm5
  refine ⟨by linear_combination -a5, by linear_combination -b5, ?_⟩
  rintro rfl rfl
  refine ⟨⟨?_, ?_⟩, ⟨?_, ?_⟩, ⟨?_, ?_⟩, ⟨?_, ?_⟩, ⟨?_, ?_⟩⟩ <;> ring

/-- An eigenfunction of two joined 3×3 blocks is determined by one number. -/
theorem square3_coordinate (l : K) : ∃ c : Nat → K, ∀ f : Nat → K,
    (∀ i < 18, ∑ j ∈ (range 18).filter (fun j => Near (twoPos 3 3 i) (twoPos 3 3 j)), f j = l * f i) →
    ∑ j ∈ range 18, c j * f j = 0 → ∀ i < 18, f i = 0 := by
  have fin : ∀ f : Nat → K,
      (∀ i < 18, ∑ j ∈ (range 18).filter (fun j => Near (twoPos 3 3 i) (twoPos 3 3 j)), f j = l * f i) →
      (l ^ 6 - 5 * l ^ 4 + 6 * l ^ 2 - 1 ≠ 0 ∨ f 0 - f 6 = 0) →
      ((l ^ 6 + 25 * l ^ 4 + 6 * l ^ 2 - 1) * (f 0 + f 6) - 2 * (6 * l ^ 5 + 20 * l ^ 3 - 4 * l) * f 3 = 0 →
        (l ^ 6 + 25 * l ^ 4 + 6 * l ^ 2 - 1) * f 3 - (6 * l ^ 5 + 20 * l ^ 3 - 4 * l) * (f 0 + f 6) = 0 →
        f 0 + f 6 = 0 ∧ f 3 = 0) →
      ∀ i < 18, f i = 0 := by
    intro f h ha hs
    obtain ⟨e0, e1, e2, e3, e4, e5, e6, e7, e8, e9, e10, e11, e12, e13, e14, e15, e16, e17⟩ := square3_system h
    obtain ⟨x0, x1, x2, x3, x4, x5⟩ := path_six (m := l) (a := f 0 - f 6) (b := f 1 - f 7) (c := f 2 - f 8) (d := f 9 - f 15)
      (e := f 10 - f 16) (g := f 11 - f 17)
      (by linear_combination e0 - e6) (by linear_combination e1 - e7) (by linear_combination e2 - e8)
      (by linear_combination e9 - e15) (by linear_combination e10 - e16) (by linear_combination e11 - e17) ha
    obtain ⟨y, z, w⟩ := ladder_six (l := l) (s0 := f 0 + f 6) (s1 := f 1 + f 7) (s2 := f 2 + f 8) (s3 := f 9 + f 15)
      (s4 := f 10 + f 16) (s5 := f 11 + f 17) (m0 := f 3) (m1 := f 4) (m2 := f 5) (m3 := f 12) (m4 := f 13) (m5 := f 14)
      (by linear_combination e0 + e6) (by linear_combination e3) (by linear_combination e1 + e7) (by linear_combination e4)
      (by linear_combination e2 + e8) (by linear_combination e5) (by linear_combination e9 + e15) (by linear_combination e12)
      (by linear_combination e10 + e16) (by linear_combination e13) (by linear_combination e11 + e17) (by linear_combination e14)
    obtain ⟨s0, m0⟩ := hs y z
    obtain ⟨⟨s1, m1⟩, ⟨s2, m2⟩, ⟨s3, m3⟩, ⟨s4, m4⟩, ⟨s5, m5⟩⟩ := w s0 m0
    intro i hi
    interval_cases i <;> linarith
  by_cases hp : l ^ 6 - 5 * l ^ 4 + 6 * l ^ 2 - 1 = 0
  · refine ⟨fun j => if j = 0 then 1 else if j = 6 then -1 else 0, fun f h hc => fin f h (Or.inr ?_) ?_⟩
    · simp [Finset.sum_range_succ] at hc
      linear_combination hc
    · intro y z
      have hD : (l ^ 6 + 25 * l ^ 4 + 6 * l ^ 2 - 1) ^ 2 - 2 * (6 * l ^ 5 + 20 * l ^ 3 - 4 * l) ^ 2 ≠ 0 := by
        intro hD
        have : (1 : K) = 0 := by
          linear_combination (-3 / 28 - 571 / 14 * l ^ 2 + 937 / 14 * l ^ 4 - 109 / 4 * l ^ 6 + 109 / 28 * l ^ 8
            - 5 / 28 * l ^ 10) * hp + (25 / 28 - 6 / 7 * l ^ 2 + 5 / 28 * l ^ 4) * hD
        exact one_ne_zero this
      constructor
      · refine (mul_eq_zero.1 ?_).resolve_left hD
        linear_combination (l ^ 6 + 25 * l ^ 4 + 6 * l ^ 2 - 1) * y + 2 * (6 * l ^ 5 + 20 * l ^ 3 - 4 * l) * z
      · refine (mul_eq_zero.1 ?_).resolve_left hD
        linear_combination (l ^ 6 + 25 * l ^ 4 + 6 * l ^ 2 - 1) * z + (6 * l ^ 5 + 20 * l ^ 3 - 4 * l) * y
  · refine ⟨fun j => if j = 3 then 1 else 0, fun f h hc => fin f h (Or.inl hp) ?_⟩
    have h3 : f 3 = 0 := by
      simp at hc
      exact hc
    intro y z
    refine ⟨?_, h3⟩
    by_contra hs
    rw [h3, mul_zero, sub_zero] at y
    rw [h3, mul_zero, zero_sub, neg_eq_zero] at z
    have hA := (mul_eq_zero.1 y).resolve_right hs
    have hB := (mul_eq_zero.1 z).resolve_right hs
    have : (1 : K) = 0 := by
      linear_combination (-1 + 67320 / 6847 * l ^ 2 + 19665 / 6847 * l ^ 4) * hA
        + (-54201 / 13694 * l - 164465 / 13694 * l ^ 3 - 6555 / 13694 * l ^ 5) * hB
    exact one_ne_zero this

/-- When the spectrum is simple, two eigenfunctions to the same number are proportional. -/
theorem proportional_of_simple {n : Nat} {A : Nat → Nat → Int} {U : Nat → Nat → K} {d : Nat → K} (h : EighOf n A U d)
    (hd : ∀ k < n, ∀ l < n, d k = d l → k = l) {x : K} {f g : Nat → K} (hf : EigenFn n A x f) (hg : EigenFn n A x g)
    (i : Nat) (hi : i < n) (j : Nat) (hj : j < n) : f i * g j = f j * g i := by
  have exp : ∀ f : Nat → K, ∀ i < n, f i = ∑ k ∈ range n, U i k * ∑ m ∈ range n, U m k * f m := by
    intro f i hi
    have e : ∀ k ∈ range n, U i k * ∑ m ∈ range n, U m k * f m = ∑ m ∈ range n, U i k * U m k * f m := by
      intro k _
      rw [Finset.mul_sum]
      exact Finset.sum_congr rfl (fun m _ => by ring)
    rw [Finset.sum_congr rfl e, Finset.sum_comm]
    have e2 : ∀ m ∈ range n, ∑ k ∈ range n, U i k * U m k * f m = if m = i then f m else 0 := by
      intro m hm
      rw [← Finset.sum_mul, h.orth i hi m (mem_range.1 hm)]
      by_cases hmi : m = i
      · rw [if_pos hmi.symm, if_pos hmi, one_mul]
      · rw [if_neg (Ne.symm hmi), if_neg hmi, zero_mul]
    rw [Finset.sum_congr rfl e2, Finset.sum_ite_eq' (range n) i, if_pos (mem_range.2 hi)]
  have coef : ∀ f : Nat → K, EigenFn n A x f → ∀ k < n, d k ≠ x → ∑ m ∈ range n, U m k * f m = 0 := by
    intro f hf k hk hne
    have e1 : d k * ∑ m ∈ range n, U m k * f m = x * ∑ m ∈ range n, U m k * f m := by
      rw [Finset.mul_sum, Finset.mul_sum]
      have s1 : ∀ m ∈ range n, d k * (U m k * f m) = ∑ p ∈ range n, (A m p : K) * U p k * f m := by
        intro m hm
        rw [← mul_assoc, ← h.col_eigen k hk m (mem_range.1 hm), Finset.sum_mul]
      have s2 : ∀ m ∈ range n, x * (U m k * f m) = ∑ p ∈ range n, (A m p : K) * f p * U m k := by
        intro m hm
        rw [show x * (U m k * f m) = x * f m * U m k by ring, ← hf m (mem_range.1 hm), Finset.sum_mul]
      rw [Finset.sum_congr rfl s1, Finset.sum_congr rfl s2, Finset.sum_comm]
      refine Finset.sum_congr rfl (fun p hp => Finset.sum_congr rfl (fun m hm => ?_))
      have hs : (A m p : K) = (A p m : K) := by
        rw [h.diag m (mem_range.1 hm) p (mem_range.1 hp), h.diag p (mem_range.1 hp) m (mem_range.1 hm)]
        exact Finset.sum_congr rfl (fun q _ => by ring)
      rw [hs]
      ring
    have e2 : (d k - x) * ∑ m ∈ range n, U m k * f m = 0 := by rw [sub_mul, e1, sub_self]
    exact (mul_eq_zero.1 e2).resolve_left (sub_ne_zero.2 hne)
  by_cases hx : ∃ k < n, d k = x
  · obtain ⟨k, hk, hkx⟩ := hx
    have one : ∀ f : Nat → K, EigenFn n A x f → ∀ i < n, f i = U i k * ∑ m ∈ range n, U m k * f m := by
      intro f hf i hi
      conv_lhs => rw [exp f i hi]
      rw [Finset.sum_eq_single k]
      · intro l hl hlk
        rw [coef f hf l (mem_range.1 hl) (fun he => hlk (hd l (mem_range.1 hl) k hk (he.trans hkx.symm))), mul_zero]
      · intro hc
        exact absurd (mem_range.2 hk) hc
    rw [one f hf i hi, one f hf j hj, one g hg i hi, one g hg j hj]
    ring
  · have zero : ∀ f : Nat → K, EigenFn n A x f → ∀ i < n, f i = 0 := by
      intro f hf i hi
      rw [exp f i hi]
      exact Finset.sum_eq_zero (fun k hk => by
        rw [coef f hf k (mem_range.1 hk) (fun he => hx ⟨k, mem_range.1 hk, he⟩), mul_zero])
    rw [zero f hf i hi, zero f hf j hj]
    ring

omit [LinearOrder K] [IsStrictOrderedRing K] in
/-- The sum over the neighbours of a site of the values of a function of the position that vanishes where there is no site. -/
theorem sum_near {n : Nat} (pos : Nat → Pt) (hinj : ∀ i < n, ∀ j < n, pos i = pos j → i = j) (F : Pt → K)
    (hF : ∀ p, F p ≠ 0 → ∃ j < n, pos j = p) (p : Pt) :
    ∑ j ∈ (range n).filter (fun j => Near p (pos j)), F (pos j) =
      F (p.1 + 1, p.2) + F (p.1 - 1, p.2) + F (p.1, p.2 + 1) + F (p.1, p.2 - 1) := by
  have e : ∑ q ∈ ({(p.1 + 1, p.2), (p.1 - 1, p.2), (p.1, p.2 + 1), (p.1, p.2 - 1)} : Finset Pt), F q =
      F (p.1 + 1, p.2) + F (p.1 - 1, p.2) + F (p.1, p.2 + 1) + F (p.1, p.2 - 1) := by
    rw [Finset.sum_insert, Finset.sum_insert, Finset.sum_insert, Finset.sum_singleton]
    · ring
    all_goals simp only [mem_insert, mem_singleton, Prod.mk.injEq, not_or]; omega
  rw [← e, ← Finset.sum_image (f := F) (g := pos) (s := (range n).filter (fun j => Near p (pos j)))]
  · apply Finset.sum_subset
    · intro q hq
      simp only [mem_image, mem_filter, mem_range] at hq
      obtain ⟨j, ⟨_, hj⟩, rfl⟩ := hq
      unfold Near at hj
      simp only [mem_insert, mem_singleton, Prod.ext_iff]
      omega
    · intro q hq hn
      by_contra hne
      obtain ⟨j, hj, rfl⟩ := hF q hne
      apply hn
      refine mem_image.2 ⟨j, mem_filter.2 ⟨mem_range.2 hj, ?_⟩, rfl⟩
      unfold Near
      simp only [mem_insert, mem_singleton, Prod.ext_iff] at hq
      omega
  · intro i hi j hj he
    exact hinj i (mem_range.1 (mem_filter.1 hi).1) j (mem_range.1 (mem_filter.1 hj).1) he

end

/-- 1 on even, -1 on odd numbers. -/
def altSign (x : Int) : Int := if x % 2 = 0 then 1 else -1

theorem altSign_succ (x : Int) : altSign (x + 1) = -altSign x := by
  unfold altSign
  split_ifs <;> omega

theorem altSign_pred (x : Int) : altSign (x - 1) = -altSign x := by
  unfold altSign
  split_ifs <;> omega

/-- A function on the plane, zero on the lines `x + 1 ≡ 0` and `y + 1 ≡ 0` modulo `g`. -/
def billiard (φ : Int → Int) (p : Pt) : Int := altSign p.1 * (φ (p.1 - p.2) - φ (p.1 + p.2 + 2))

theorem billiard_sum (φ : Int → Int) (p : Pt) :
    billiard φ (p.1 + 1, p.2) + billiard φ (p.1 - 1, p.2) + billiard φ (p.1, p.2 + 1) + billiard φ (p.1, p.2 - 1) = 0 := by
  unfold billiard
  simp only [altSign_succ, altSign_pred]
  rw [show p.1 + 1 - p.2 = p.1 - p.2 + 1 by ring, show p.1 + 1 + p.2 + 2 = p.1 + p.2 + 3 by ring,
    show p.1 - 1 - p.2 = p.1 - p.2 - 1 by ring, show p.1 - 1 + p.2 + 2 = p.1 + p.2 + 1 by ring,
    show p.1 - (p.2 + 1) = p.1 - p.2 - 1 by ring, show p.1 + (p.2 + 1) + 2 = p.1 + p.2 + 3 by ring,
    show p.1 - (p.2 - 1) = p.1 - p.2 + 1 by ring, show p.1 + (p.2 - 1) + 2 = p.1 + p.2 + 1 by ring]
  ring

theorem periodic_mul {φ : Int → Int} {g : Int} (hp : ∀ x, φ (x + 2 * g) = φ x) (x k : Int) : φ (x + 2 * g * k) = φ x := by
  induction k with
  | zero => simp
  | succ k ih => rw [show x + 2 * g * (k + 1) = x + 2 * g * k + 2 * g by ring, hp, ih]
  | pred k ih =>
    rw [← hp, show x + 2 * g * (-(k : Int) - 1) + 2 * g = x + 2 * g * (-(k : Int)) by ring, ih]

theorem billiard_zero_x {φ : Int → Int} {g : Int} (he : ∀ x, φ (-x) = φ x) (hp : ∀ x, φ (x + 2 * g) = φ x) (p : Pt)
    (h : g ∣ p.1 + 1) : billiard φ p = 0 := by
  obtain ⟨k, hk⟩ := h
  unfold billiard
  rw [← he (p.1 - p.2), show p.1 + p.2 + 2 = -(p.1 - p.2) + 2 * g * k by linear_combination 2 * hk, periodic_mul hp, sub_self,
    mul_zero]

theorem billiard_zero_y {φ : Int → Int} {g : Int} (hp : ∀ x, φ (x + 2 * g) = φ x) (p : Pt)
    (h : g ∣ p.2 + 1) : billiard φ p = 0 := by
  obtain ⟨k, hk⟩ := h
  unfold billiard
  rw [show p.1 + p.2 + 2 = p.1 - p.2 + 2 * g * k by linear_combination 2 * hk, periodic_mul hp, sub_self, mul_zero]

/-- The positions of two joined `W x H` blocks fill a rectangle. -/
theorem twoPos_mem {W H : Nat} (x y : Nat) (hx : x < 2 * W) (hy : y < H) :
    ∃ j < 2 * (W * H), twoPos W H j = ((x : Int), (y : Int)) := by
  have hW : 0 < W := by omega
  rcases Nat.lt_or_ge x W with h | h
  · have hlt : y * W + x < W * H := by nlinarith
    refine ⟨y * W + x, by omega, ?_⟩
    unfold twoPos gridPos
    rw [if_pos hlt, Nat.add_comm, Nat.add_mul_mod_self_right, Nat.mod_eq_of_lt h, Nat.add_mul_div_right _ _ hW, Nat.div_eq_of_lt h,
      Nat.zero_add]
  · have hlt : y * W + (x - W) < W * H := by
      have : x - W < W := by omega
      nlinarith
    refine ⟨W * H + (y * W + (x - W)), by omega, ?_⟩
    unfold twoPos gridPos
    rw [if_neg (by omega), Nat.add_sub_cancel_left, Nat.add_comm, Nat.add_mul_mod_self_right,
      Nat.mod_eq_of_lt (show x - W < W by omega), Nat.add_mul_div_right _ _ hW, Nat.div_eq_of_lt (show x - W < W by omega), Nat.zero_add]
    ext
    · simp only; omega
    · rfl

theorem twoPos_range {W H : Nat} (hW : 0 < W) (j : Nat) (hj : j < 2 * (W * H)) :
    ∃ x y : Nat, x < 2 * W ∧ y < H ∧ twoPos W H j = ((x : Int), (y : Int)) ∧
      j = if x < W then y * W + x else W * H + (y * W + (x - W)) := by
  unfold twoPos gridPos
  rcases Nat.lt_or_ge j (W * H) with h | h
  · have m1 := Nat.mod_lt j hW
    refine ⟨j % W, j / W, by omega, ?_, by rw [if_pos h], ?_⟩
    · exact Nat.div_lt_of_lt_mul h
    · rw [if_pos m1, Nat.mul_comm]
      exact (Nat.div_add_mod j W).symm
  · have m1 := Nat.mod_lt (j - W * H) hW
    refine ⟨(j - W * H) % W + W, (j - W * H) / W, by omega, ?_, by rw [if_neg (by omega)]; simp, ?_⟩
    · exact Nat.div_lt_of_lt_mul (by omega)
    · rw [if_neg (by omega), Nat.add_sub_cancel, Nat.mul_comm ((j - W * H) / W) W]
      have := Nat.div_add_mod (j - W * H) W
      omega

theorem twoPos_injective {W H : Nat} (hW : 0 < W) (i : Nat) (hi : i < 2 * (W * H)) (j : Nat) (hj : j < 2 * (W * H))
    (h : twoPos W H i = twoPos W H j) : i = j := by
  obtain ⟨x, y, _, _, e, r⟩ := twoPos_range hW i hi
  obtain ⟨x', y', _, _, e', r'⟩ := twoPos_range hW j hj
  rw [e, e', Prod.mk.injEq] at h
  have h1 : x = x' := by exact_mod_cast h.1
  have h2 : y = y' := by exact_mod_cast h.2
  rw [r, r', h1, h2]

section

variable {K : Type} [Field K]

/-- A kernel function of two joined blocks whose sides have a common factor. -/
theorem billiard_eigen {W H : Nat} (hW : 0 < W) {A : Nat → Nat → Int}
    (hA : ∀ i < 2 * (W * H), ∀ j < 2 * (W * H), (A i j = 1 ↔ Near (twoPos W H i) (twoPos W H j)) ∧ (A i j = 0 ∨ A i j = 1))
    {φ : Int → Int} {g : Int} (he : ∀ x, φ (-x) = φ x) (hp : ∀ x, φ (x + 2 * g) = φ x)
    (h1 : g ∣ 2 * (W : Int) + 1) (h2 : g ∣ (H : Int) + 1) :
    EigenFn (2 * (W * H)) A (0 : K) (fun j => ((billiard φ (twoPos W H j) : Int) : K)) := by
  intro i hi
  obtain ⟨x, y, hx, hy, e, _⟩ := twoPos_range hW i hi
  set F : Pt → K := fun p => if (0 ≤ p.1 ∧ p.1 < 2 * (W : Int)) ∧ (0 ≤ p.2 ∧ p.2 < (H : Int)) then ((billiard φ p : Int) : K) else 0 with hF
  have hFj : ∀ j < 2 * (W * H), ((billiard φ (twoPos W H j) : Int) : K) = F (twoPos W H j) := by
    intro j hj
    obtain ⟨x', y', hx', hy', e', _⟩ := twoPos_range hW j hj
    rw [hF, e']
    simp only
    rw [if_pos (by omega)]
  have hext : ∀ p : Pt, -1 ≤ p.1 → p.1 ≤ 2 * (W : Int) → -1 ≤ p.2 → p.2 ≤ (H : Int) → F p = ((billiard φ p : Int) : K) := by
    intro p a b c d
    rw [hF]
    simp only
    split_ifs with hc
    · rfl
    · have hz : billiard φ p = 0 := by
        by_cases u : p.1 = -1
        · exact billiard_zero_x he hp p (by rw [u]; simp)
        by_cases v : p.1 = 2 * (W : Int)
        · exact billiard_zero_x he hp p (by rw [v]; exact h1)
        by_cases u' : p.2 = -1
        · exact billiard_zero_y hp p (by rw [u']; simp)
        by_cases v' : p.2 = (H : Int)
        · exact billiard_zero_y hp p (by rw [v']; exact h2)
        omega
      rw [hz]; simp
  have s1 : ∑ j ∈ range (2 * (W * H)), (A i j : K) * ((billiard φ (twoPos W H j) : Int) : K) =
      ∑ j ∈ (range (2 * (W * H))).filter (fun j => Near (twoPos W H i) (twoPos W H j)), F (twoPos W H j) := by
    rw [Finset.sum_filter]
    apply Finset.sum_congr rfl
    intro j hj
    obtain ⟨a, b⟩ := hA i hi j (mem_range.1 hj)
    split_ifs with hN
    · rw [a.2 hN, hFj j (mem_range.1 hj)]; simp
    · rcases b with b | b
      · rw [b]; simp
      · exact absurd (a.1 b) hN
  rw [s1, sum_near (twoPos W H) (twoPos_injective hW) F, zero_mul, e]
  · simp only
    rw [hext _ (by simp only; omega) (by simp only; omega) (by simp only; omega) (by simp only; omega),
      hext _ (by simp only; omega) (by simp only; omega) (by simp only; omega) (by simp only; omega),
      hext _ (by simp only; omega) (by simp only; omega) (by simp only; omega) (by simp only; omega),
      hext _ (by simp only; omega) (by simp only; omega) (by simp only; omega) (by simp only; omega)]
    have := billiard_sum φ ((x : Int), (y : Int))
    exact_mod_cast congrArg (fun z : Int => (z : K)) this
  · intro p hne
    rw [hF] at hne
    simp only at hne
    split_ifs at hne with hc
    · obtain ⟨j, hj, h⟩ := twoPos_mem (W := W) (H := H) p.1.toNat p.2.toNat (by omega) (by omega)
      refine ⟨j, hj, ?_⟩
      rw [h]
      ext <;> simp only <;> omega
    · exact absurd rfl hne

end

end TJ
