/-
Property C115: how the energies depend on the couplings.
-/
import Mathlib.Data.Fin.Tuple.Sort
import Verif.Lemmas.Weyl
import Verif.Lemmas.ExactLib
import Verif.Props.Initial
import Verif.Props.Hamiltonian

namespace TJ

open Finset Matrix

/-- `I'` has the same hopping and singlet displacement as `I`, no exchange coupling that is larger and no repulsion that is smaller. -/
structure Raised {K : Type} [LinearOrder K] (I I' : Interactions K) : Prop where
  same : I'.t = I.t ∧ I'.tNNN = I.tNNN ∧ I'.tnNNN = I.tnNNN ∧ I'.hSDpar = I.hSDpar ∧ I'.hSDper = I.hSDper
  exchange : I'.J ≤ I.J ∧ I'.Jhpar ≤ I.Jhpar ∧ I'.Jhper ≤ I.Jhper
  repulsion : I.VNN ≤ I'.VNN ∧ I.VNNNper ≤ I'.VNNNper

section
variable {K : Type} [Field K] [LinearOrder K] [IsStrictOrderedRing K] {n : Nat} (pos : Fin n → Pt)

/-- The expectation value of the textbook Hamiltonian. -/
def tjForm (I : Interactions K) (B : BoolInteractions) (φ : Conf n → K) : K := ∑ σ, φ σ * tjOp I pos B φ σ

/-- Half of the coupling of a bond with two electrons. -/
def bondWeight (I : Interactions K) (a b : Fin n) (σ : Conf n) : K :=
  if a < b ∧ Near (pos a) (pos b) ∧ σ a ≠ .hole ∧ σ b ≠ .hole then Jeff I pos σ a b / 2 else 0

omit [LinearOrder K] [IsStrictOrderedRing K] in
theorem bondWeight_exch (I : Interactions K) (a b : Fin n) (σ : Conf n) : bondWeight pos I a b (exch σ a b) = bondWeight pos I a b σ := by
  unfold bondWeight
  have ea : exch σ a b a = σ b := by simp [exch]
  have eb : exch σ a b b = σ a := by simp [exch]
  rw [ea, eb]
  by_cases h : σ a ≠ .hole ∧ σ b ≠ .hole
  · have : Jeff I pos (exch σ a b) a b = Jeff I pos σ a b := by
      refine Jeff_congr I pos (fun s => ?_) a b
      unfold exch
      by_cases hs : s = a
      · subst hs; simp [h.1, h.2]
      · by_cases hs' : s = b
        · subst hs'; simp [h.1, h.2]
        · rw [Equiv.swap_apply_of_ne_of_ne hs hs']
    rw [this]
    simp only [and_comm]
  · rw [if_neg (fun hh => h ⟨hh.2.2.2, hh.2.2.1⟩), if_neg (fun hh => h ⟨hh.2.2.1, hh.2.2.2⟩)]

theorem Jeff_mono {I I' : Interactions K} (h : Raised I I') (σ : Conf n) (a b : Fin n) : Jeff I' pos σ a b ≤ Jeff I pos σ a b := by
  unfold Jeff
  split_ifs
  · exact h.exchange.2.1
  · exact h.exchange.2.2
  · exact h.exchange.1

theorem bondWeight_mono {I I' : Interactions K} (h : Raised I I') (a b : Fin n) (σ : Conf n) :
    bondWeight pos I' a b σ ≤ bondWeight pos I a b σ := by
  unfold bondWeight
  split_ifs
  · exact div_le_div_of_nonneg_right (Jeff_mono pos h σ a b) zero_le_two
  · exact le_refl _

/-- The exchange of two spins is a sum of squares. -/
theorem spin_form (I : Interactions K) (φ : Conf n → K) :
    2 * (∑ σ, φ σ * ∑ τ, (staticEl I pos σ τ + flipEl I pos σ τ) * φ τ) =
      - ∑ a, ∑ b, ∑ σ, bondWeight pos I a b σ * (φ (exch σ a b) - φ σ) ^ 2 := by
  have e1 : (∑ σ, φ σ * ∑ τ, (staticEl I pos σ τ + flipEl I pos σ τ) * φ τ) =
      ∑ a, ∑ b, ∑ σ, bondWeight pos I a b σ * (φ σ * φ (exch σ a b) - φ σ * φ σ) := by
    have : ∀ σ, φ σ * ∑ τ, (staticEl I pos σ τ + flipEl I pos σ τ) * φ τ =
        ∑ a, ∑ b, bondWeight pos I a b σ * (φ σ * φ (exch σ a b) - φ σ * φ σ) := by
      intro σ
      rw [static_flip_sum two_ne_zero, ← sum_add_distrib, mul_sum]
      refine sum_congr rfl fun a _ => ?_
      rw [← sum_add_distrib, mul_sum]
      refine sum_congr rfl fun b _ => ?_
      unfold bondWeight
      split_ifs <;> ring
    simp only [this]
    rw [sum_comm]
    refine sum_congr rfl fun a _ => ?_
    rw [sum_comm]
  rw [e1, mul_sum, ← sum_neg_distrib]
  refine sum_congr rfl fun a _ => ?_
  rw [mul_sum, ← sum_neg_distrib]
  refine sum_congr rfl fun b _ => ?_
  have inv : ∀ σ : Conf n, exch (exch σ a b) a b = σ := by
    intro σ; funext s; simp [exch]
  have e2 : (∑ σ, bondWeight pos I a b σ * (φ (exch σ a b) * φ (exch σ a b))) = ∑ σ, bondWeight pos I a b σ * (φ σ * φ σ) := by
    refine sum_nbij' (fun σ => exch σ a b) (fun σ => exch σ a b) (by simp) (by simp) (fun σ _ => inv σ) (fun σ _ => inv σ) ?_
    intro σ _
    rw [bondWeight_exch]
  have e3 : (∑ σ, bondWeight pos I a b σ * (φ (exch σ a b) - φ σ) ^ 2) =
      (∑ σ, bondWeight pos I a b σ * (φ (exch σ a b) * φ (exch σ a b))) + (∑ σ, bondWeight pos I a b σ * (φ σ * φ σ)) -
        2 * ∑ σ, bondWeight pos I a b σ * (φ σ * φ (exch σ a b)) := by
    rw [mul_sum, ← sum_add_distrib, ← sum_sub_distrib]
    exact sum_congr rfl fun σ _ => by ring
  rw [e3, e2]
  simp only [mul_sub, sum_sub_distrib]
  ring

theorem spin_mono {I I' : Interactions K} (h : Raised I I') (φ : Conf n → K) :
    (∑ σ, φ σ * ∑ τ, (staticEl I pos σ τ + flipEl I pos σ τ) * φ τ) ≤ ∑ σ, φ σ * ∑ τ, (staticEl I' pos σ τ + flipEl I' pos σ τ) * φ τ := by
  have h1 := spin_form pos I φ
  have h2 := spin_form pos I' φ
  have h3 : (∑ a, ∑ b, ∑ σ, bondWeight pos I' a b σ * (φ (exch σ a b) - φ σ) ^ 2) ≤
      ∑ a, ∑ b, ∑ σ, bondWeight pos I a b σ * (φ (exch σ a b) - φ σ) ^ 2 :=
    sum_le_sum fun a _ => sum_le_sum fun b _ => sum_le_sum fun σ _ => mul_le_mul_of_nonneg_right (bondWeight_mono pos h a b σ) (sq_nonneg _)
  linarith

omit [LinearOrder K] [IsStrictOrderedRing K] in
theorem diag_form (f : Conf n → K) (φ : Conf n → K) : (∑ σ, φ σ * ∑ τ, (if τ = σ then f σ else 0) * φ τ) = ∑ σ, f σ * (φ σ * φ σ) := by
  refine sum_congr rfl fun σ _ => ?_
  simp only [ite_mul, zero_mul, sum_ite_eq', mem_univ, if_true]
  ring

theorem static_mono {I I' : Interactions K} (h : Raised I I') (φ : Conf n → K) :
    (∑ σ, φ σ * ∑ τ, staticEl I pos σ τ * φ τ) ≤ ∑ σ, φ σ * ∑ τ, staticEl I' pos σ τ * φ τ := by
  unfold staticEl
  rw [diag_form, diag_form]
  refine sum_le_sum fun σ _ => mul_le_mul_of_nonneg_right ?_ (mul_self_nonneg _)
  refine sum_le_sum fun a _ => sum_le_sum fun b _ => ?_
  split_ifs with hb
  · have h1 := Jeff_mono pos h σ a b
    have h2 : (σ a).val * (σ b).val - 1 / 4 ≤ (0 : K) := by
      cases σ a <;> cases σ b <;> norm_num [Occ.val]
    exact mul_le_mul_of_nonpos_right h1 h2
  · exact le_refl _

theorem rep_mono {I I' : Interactions K} (h : Raised I I') (φ : Conf n → K) :
    (∑ σ, φ σ * ∑ τ, repEl I pos σ τ * φ τ) ≤ ∑ σ, φ σ * ∑ τ, repEl I' pos σ τ * φ τ := by
  unfold repEl
  rw [diag_form, diag_form]
  refine sum_le_sum fun σ _ => mul_le_mul_of_nonneg_right ?_ (mul_self_nonneg _)
  refine sum_le_sum fun a _ => sum_le_sum fun b _ => ?_
  split_ifs with hb
  all_goals first | exact le_refl _ | (have := h.repulsion.1; have := h.repulsion.2; linarith)

/-- The terms of the expectation value. -/
theorem form_split {I : Interactions K} (B : BoolInteractions) (hB : B.bij = true → B.bz = true) (φ : Conf n → K)
    (J : Interactions K) (hJ : J.t = I.t ∧ J.tNNN = I.tNNN ∧ J.tnNNN = I.tnNNN ∧ J.hSDpar = I.hSDpar ∧ J.hSDper = I.hSDper) :
    tjForm pos J B φ =
      (∑ σ, φ σ * ∑ τ, ((if B.bt then hopEl I pos σ τ else 0) + (if B.bSD then sdEl I pos σ τ else 0) +
        (if B.btN then nextEl I pos σ τ else 0)) * φ τ) +
      (if B.bz then (if B.bij then (∑ σ, φ σ * ∑ τ, (staticEl J pos σ τ + flipEl J pos σ τ) * φ τ)
        else ∑ σ, φ σ * ∑ τ, staticEl J pos σ τ * φ τ) else 0) +
      (if B.bV then ∑ σ, φ σ * ∑ τ, repEl J pos σ τ * φ τ else 0) := by
  obtain ⟨s1, s2, s3, s4, s5⟩ := hJ
  have hop : ∀ σ τ, hopEl J pos σ τ = hopEl I pos σ τ := by intro σ τ; unfold hopEl; rw [s1]
  have next : ∀ σ τ, nextEl J pos σ τ = nextEl I pos σ τ := by intro σ τ; unfold nextEl; rw [s2, s3]
  have sd : ∀ σ τ, sdEl J pos σ τ = sdEl I pos σ τ := by intro σ τ; unfold sdEl; rw [s4, s5]
  unfold tjForm tjOp hamEl
  simp only [hop, next, sd]
  cases hz : B.bz <;> cases hij : B.bij <;> cases B.bV
  all_goals first | (have hh := hB hij; rw [hz] at hh; cases hh; done) | skip
  all_goals simp only [if_true, if_false, Bool.false_eq_true, add_zero, add_mul, sum_add_distrib, mul_add]
  all_goals ring

/-- The expectation value of every state grows with the repulsions and falls with the exchange couplings. -/
theorem form_mono {I I' : Interactions K} (h : Raised I I') (B : BoolInteractions) (hB : B.bij = true → B.bz = true) (φ : Conf n → K) :
    tjForm pos I B φ ≤ tjForm pos I' B φ := by
  rw [form_split pos B hB φ I ⟨rfl, rfl, rfl, rfl, rfl⟩, form_split pos B hB φ I' h.same]
  refine add_le_add (add_le_add le_rfl ?_) ?_
  · split_ifs
    · exact spin_mono pos h φ
    · exact static_mono pos h φ
    · exact le_refl _
  · split_ifs
    · exact rep_mono pos h φ
    · exact le_refl _

/-- The pairs of neighbouring sites. -/
def nearPairs : Finset (Fin n × Fin n) := univ.filter fun p => p.1 < p.2 ∧ Near (pos p.1) (pos p.2)

/-- The pairs of sites on a diagonal of a plaquette. -/
def diagonalPairs : Finset (Fin n × Fin n) := univ.filter fun p => p.1 < p.2 ∧ Diagonal (pos p.1) (pos p.2)

/-- No coupling differs by more than `δ` for the exchange and `ε`, `η` for the repulsions. -/
structure Within (I I' : Interactions K) (δ ε η : K) : Prop where
  exchange : I.J - I'.J ≤ δ ∧ I.Jhpar - I'.Jhpar ≤ δ ∧ I.Jhper - I'.Jhper ≤ δ
  repulsion : I'.VNN - I.VNN ≤ ε ∧ I'.VNNNper - I.VNNNper ≤ η

theorem Jeff_within {I I' : Interactions K} {δ ε η : K} (h : Within I I' δ ε η) (σ : Conf n) (a b : Fin n) :
    Jeff I pos σ a b - Jeff I' pos σ a b ≤ δ := by
  unfold Jeff
  split_ifs
  · exact h.exchange.2.1
  · exact h.exchange.2.2
  · exact h.exchange.1

omit [LinearOrder K] [IsStrictOrderedRing K] in
theorem pair_sum (P : Fin n → Fin n → Prop) [∀ a b, Decidable (P a b)] (x : K) :
    (∑ a, ∑ b, if P a b then x else 0) = ((univ.filter fun p : Fin n × Fin n => P p.1 p.2).card : K) * x := by
  rw [← sum_product', ← sum_filter, sum_const, nsmul_eq_mul]
  rfl

theorem spin_within {I I' : Interactions K} {δ ε η : K} (hd : 0 ≤ δ) (h : Within I I' δ ε η) (φ : Conf n → K) :
    (∑ σ, φ σ * ∑ τ, (staticEl I' pos σ τ + flipEl I' pos σ τ) * φ τ) ≤
      (∑ σ, φ σ * ∑ τ, (staticEl I pos σ τ + flipEl I pos σ τ) * φ τ) + (nearPairs pos).card * δ * ∑ σ, φ σ * φ σ := by
  have h1 := spin_form pos I φ
  have h2 := spin_form pos I' φ
  have h3 : (∑ a, ∑ b, ∑ σ, bondWeight pos I a b σ * (φ (exch σ a b) - φ σ) ^ 2) -
      (∑ a, ∑ b, ∑ σ, bondWeight pos I' a b σ * (φ (exch σ a b) - φ σ) ^ 2) ≤
        ∑ a, ∑ b, if a < b ∧ Near (pos a) (pos b) then 2 * δ * ∑ σ, φ σ * φ σ else 0 := by
    rw [← sum_sub_distrib]
    refine sum_le_sum fun a _ => ?_
    rw [← sum_sub_distrib]
    refine sum_le_sum fun b _ => ?_
    rw [← sum_sub_distrib]
    have inv : ∀ σ : Conf n, exch (exch σ a b) a b = σ := by
      intro σ; funext s; simp [exch]
    have e2 : (∑ σ, φ (exch σ a b) * φ (exch σ a b)) = ∑ σ, φ σ * φ σ :=
      sum_nbij' (fun σ => exch σ a b) (fun σ => exch σ a b) (by simp) (by simp) (fun σ _ => inv σ) (fun σ _ => inv σ) (fun σ _ => rfl)
    split_ifs with hab
    · have : (2 * δ * ∑ σ, φ σ * φ σ) = ∑ σ, δ * (φ (exch σ a b) * φ (exch σ a b) + φ σ * φ σ) := by
        rw [← mul_sum, sum_add_distrib, e2]; ring
      rw [this]
      refine sum_le_sum fun σ _ => ?_
      rw [← sub_mul]
      have w : bondWeight pos I a b σ - bondWeight pos I' a b σ ≤ δ / 2 := by
        unfold bondWeight
        split_ifs
        · have := Jeff_within pos h σ a b
          linarith
        · linarith
      have q : (φ (exch σ a b) - φ σ) ^ 2 ≤ 2 * (φ (exch σ a b) * φ (exch σ a b) + φ σ * φ σ) := by
        nlinarith [sq_nonneg (φ (exch σ a b) + φ σ)]
      calc (bondWeight pos I a b σ - bondWeight pos I' a b σ) * (φ (exch σ a b) - φ σ) ^ 2
          ≤ δ / 2 * (φ (exch σ a b) - φ σ) ^ 2 := mul_le_mul_of_nonneg_right w (sq_nonneg _)
        _ ≤ δ / 2 * (2 * (φ (exch σ a b) * φ (exch σ a b) + φ σ * φ σ)) := mul_le_mul_of_nonneg_left q (by linarith)
        _ = _ := by ring
    · refine le_of_eq (sum_eq_zero fun σ _ => ?_)
      unfold bondWeight
      rw [if_neg (fun hh => hab ⟨hh.1, hh.2.1⟩), if_neg (fun hh => hab ⟨hh.1, hh.2.1⟩)]
      ring
  rw [pair_sum (fun a b => a < b ∧ Near (pos a) (pos b))] at h3
  unfold nearPairs
  linarith

theorem static_within {I I' : Interactions K} {δ ε η : K} (hd : 0 ≤ δ) (h : Within I I' δ ε η) (φ : Conf n → K) :
    (∑ σ, φ σ * ∑ τ, staticEl I' pos σ τ * φ τ) ≤
      (∑ σ, φ σ * ∑ τ, staticEl I pos σ τ * φ τ) + (nearPairs pos).card * δ * ∑ σ, φ σ * φ σ := by
  unfold staticEl
  rw [diag_form, diag_form, mul_sum, ← sum_add_distrib]
  refine sum_le_sum fun σ _ => ?_
  rw [← add_mul]
  refine mul_le_mul_of_nonneg_right ?_ (mul_self_nonneg _)
  unfold nearPairs
  rw [← pair_sum (fun a b => a < b ∧ Near (pos a) (pos b)), ← sum_add_distrib]
  refine sum_le_sum fun a _ => ?_
  rw [← sum_add_distrib]
  refine sum_le_sum fun b _ => ?_
  have h1 := Jeff_within pos h σ a b
  have h2 : (σ a).val * (σ b).val - 1 / 4 ≤ (0 : K) := by
    cases σ a <;> cases σ b <;> norm_num [Occ.val]
  have h4 : (-1 : K) ≤ (σ a).val * (σ b).val - 1 / 4 := by
    cases σ a <;> cases σ b <;> norm_num [Occ.val]
  split_ifs with u1 u2 u2
  · nlinarith
  · exact absurd ⟨u1.1, u1.2.1⟩ u2
  · linarith
  · linarith

theorem rep_within {I I' : Interactions K} {δ ε η : K} (he : 0 ≤ ε) (hn : 0 ≤ η) (h : Within I I' δ ε η) (φ : Conf n → K) :
    (∑ σ, φ σ * ∑ τ, repEl I' pos σ τ * φ τ) ≤
      (∑ σ, φ σ * ∑ τ, repEl I pos σ τ * φ τ) + ((nearPairs pos).card * ε + (diagonalPairs pos).card * η) * ∑ σ, φ σ * φ σ := by
  unfold repEl
  rw [diag_form, diag_form, mul_sum, ← sum_add_distrib]
  refine sum_le_sum fun σ _ => ?_
  rw [← add_mul]
  refine mul_le_mul_of_nonneg_right ?_ (mul_self_nonneg _)
  unfold nearPairs diagonalPairs
  rw [← pair_sum (fun a b => a < b ∧ Near (pos a) (pos b)), ← pair_sum (fun a b => a < b ∧ Diagonal (pos a) (pos b)), ← sum_add_distrib,
    ← sum_add_distrib]
  refine sum_le_sum fun a _ => ?_
  rw [← sum_add_distrib, ← sum_add_distrib]
  refine sum_le_sum fun b _ => ?_
  obtain ⟨r1, r2⟩ := h.repulsion
  by_cases u1 : a < b <;> by_cases u2 : Near (pos a) (pos b) <;> by_cases u3 : Diagonal (pos a) (pos b) <;>
    by_cases u4 : σ a = .hole ∧ σ b = .hole
  all_goals simp only [u1, u2, u3, u4, true_and, false_and, and_true, and_false, if_true, if_false, and_self]
  all_goals linarith

/-- The expectation value of a state changes by no more than the changes of the couplings times the numbers of pairs. -/
theorem form_within {I I' : Interactions K} (hI : Raised I I') {δ ε η : K} (hd : 0 ≤ δ) (he : 0 ≤ ε) (hn : 0 ≤ η) (h : Within I I' δ ε η)
    (B : BoolInteractions) (hB : B.bij = true → B.bz = true) (φ : Conf n → K) :
    tjForm pos I' B φ ≤ tjForm pos I B φ + ((nearPairs pos).card * (δ + ε) + (diagonalPairs pos).card * η) * ∑ σ, φ σ * φ σ := by
  rw [form_split pos B hB φ I ⟨rfl, rfl, rfl, rfl, rfl⟩, form_split pos B hB φ I' hI.same]
  have n0 : (0 : K) ≤ ∑ σ, φ σ * φ σ := sum_nonneg fun σ _ => mul_self_nonneg _
  have c1 : (0 : K) ≤ (nearPairs pos).card * δ * ∑ σ, φ σ * φ σ := mul_nonneg (mul_nonneg (Nat.cast_nonneg _) hd) n0
  have c2 : (0 : K) ≤ ((nearPairs pos).card * ε + (diagonalPairs pos).card * η) * ∑ σ, φ σ * φ σ :=
    mul_nonneg (add_nonneg (mul_nonneg (Nat.cast_nonneg _) he) (mul_nonneg (Nat.cast_nonneg _) hn)) n0
  have h1 := spin_within pos hd h φ
  have h2 := static_within pos hd h φ
  have h3 := rep_within pos he hn h φ
  have e : ((nearPairs pos).card * (δ + ε) + (diagonalPairs pos).card * η) * ∑ σ, φ σ * φ σ =
      (nearPairs pos).card * δ * (∑ σ, φ σ * φ σ) + ((nearPairs pos).card * ε + (diagonalPairs pos).card * η) * ∑ σ, φ σ * φ σ := by ring
  rw [e]
  split_ifs <;> linarith

end

/-! ### C115 -/

section
variable {K : Type} [Field K] [LinearOrder K] [IsStrictOrderedRing K]

omit [LinearOrder K] [IsStrictOrderedRing K] in
/-- The quadratic form of the built matrix is the expectation value of the textbook Hamiltonian. -/
theorem built_form {E : Env} {c : Config} {nbh nbv nb : Nat} (hc : RectConf c nbh nbv nb)
    (hf : c.Full) (hn : c.nholes + c.nbeta ≤ c.nsites) {I : Interactions K} {B : BoolInteractions} {r : List Nat} {v : Bool}
    {dets : List (List Nat)} (hb : constructBasis c = .ok dets) {H : SpMat K} (hH : buildHamiltonian E c I dets B r v = .ok H) :
    H.dim = dets.length ∧ H.toMatrix.IsSymm ∧
      ∀ z, z ⬝ᵥ (H.toMatrix *ᵥ z) = tjForm (fun s : Fin c.nsites => gridPos (nbh * nb) s) I B (state c dets z) := by
  obtain ⟨H', h1, h2, _, _⟩ := buildHamiltonian_spec I (hc.tj E) hf hn hb B r v
  obtain rfl := Except.ok.inj (hH.symm.trans h1)
  refine ⟨h2, ?_, fun z => ?_⟩
  · ext i j
    exact C32_symmetric E c nbh nbv nb hc hf hn I B r v dets hb H hH j i
  · rw [state_dot hb hn h2, state_mulVec hb hn h2 (C31_matrix_elements E c nbh nbv nb hc hf hn I B r v dets hb H hH)]
    rfl

/-- C115. On every rectangular lattice, when the exchange couplings are lowered or the repulsions of the holes are raised, with the other couplings as
they are, no energy of the Hamiltonian becomes lower: the energies in ascending order are compared one by one. -/
theorem C115_monotone (E : Env) (c : Config) (nbh nbv nb : Nat) (hc : RectConf c nbh nbv nb) (hf : c.Full)
    (hn : c.nholes + c.nbeta ≤ c.nsites) (I I' : Interactions K) (hI : Raised I I') (B : BoolInteractions) (hB : B.bij = true → B.bz = true)
    (r : List Nat) (v : Bool) (dets : List (List Nat)) (hb : constructBasis c = .ok dets) (H H' : SpMat K)
    (hH : buildHamiltonian E c I dets B r v = .ok H) (hH' : buildHamiltonian E c I' dets B r v = .ok H')
    (e : Fin H.dim → K) (w : Fin H.dim → Fin H.dim → K) (hw : ∀ k, H.toMatrix *ᵥ w k = e k • w k)
    (hwo : ∀ i j, w i ⬝ᵥ w j = if i = j then 1 else 0) (he : Monotone e)
    (e' : Fin H'.dim → K) (w' : Fin H'.dim → Fin H'.dim → K) (hw' : ∀ k, H'.toMatrix *ᵥ w' k = e' k • w' k)
    (hwo' : ∀ i j, w' i ⬝ᵥ w' j = if i = j then 1 else 0) (he' : Monotone e') :
    H.dim = H'.dim ∧ ∀ k (hk : k < H.dim) (hk' : k < H'.dim), e ⟨k, hk⟩ ≤ e' ⟨k, hk'⟩ := by
  obtain ⟨d1, d2, d3⟩ := built_form hc hf hn hb hH
  obtain ⟨d1', _, d3'⟩ := built_form hc hf hn hb hH'
  refine ⟨d1.trans d1'.symm, fun k hk hk' => ?_⟩
  clear hH hH'
  obtain ⟨d, M⟩ := H
  obtain ⟨d', M'⟩ := H'
  obtain rfl : d = d' := d1.trans d1'.symm
  have := eigen_sorted d2 hw hwo hw' hwo' he he' 0 (fun z => by
    rw [d3 z, d3' z, zero_mul, add_zero]
    exact form_mono _ hI B hB _) ⟨k, hk⟩
  rwa [add_zero] at this

/-- C115. No energy then rises by more than the change of the exchange times the number of bonds plus the changes of the repulsions times the numbers of
neighbouring and of diagonal pairs. -/
theorem C115_continuous (E : Env) (c : Config) (nbh nbv nb : Nat) (hc : RectConf c nbh nbv nb) (hf : c.Full)
    (hn : c.nholes + c.nbeta ≤ c.nsites) (I I' : Interactions K) (hI : Raised I I') (δ ε η : K) (hd : 0 ≤ δ) (hε : 0 ≤ ε) (hη : 0 ≤ η)
    (hI' : Within I I' δ ε η) (B : BoolInteractions) (hB : B.bij = true → B.bz = true)
    (r : List Nat) (v : Bool) (dets : List (List Nat)) (hb : constructBasis c = .ok dets) (H H' : SpMat K)
    (hH : buildHamiltonian E c I dets B r v = .ok H) (hH' : buildHamiltonian E c I' dets B r v = .ok H')
    (e : Fin H.dim → K) (w : Fin H.dim → Fin H.dim → K) (hw : ∀ k, H.toMatrix *ᵥ w k = e k • w k)
    (hwo : ∀ i j, w i ⬝ᵥ w j = if i = j then 1 else 0) (he : Monotone e)
    (e' : Fin H'.dim → K) (w' : Fin H'.dim → Fin H'.dim → K) (hw' : ∀ k, H'.toMatrix *ᵥ w' k = e' k • w' k)
    (hwo' : ∀ i j, w' i ⬝ᵥ w' j = if i = j then 1 else 0) (he' : Monotone e') (k : Nat) (hk : k < H.dim) (hk' : k < H'.dim) :
    e' ⟨k, hk'⟩ ≤ e ⟨k, hk⟩ + ((nearPairs fun s : Fin c.nsites => gridPos (nbh * nb) s).card * (δ + ε) +
      (diagonalPairs fun s : Fin c.nsites => gridPos (nbh * nb) s).card * η) := by
  obtain ⟨d1, d2, d3⟩ := built_form hc hf hn hb hH
  obtain ⟨d1', d2', d3'⟩ := built_form hc hf hn hb hH'
  clear hH hH'
  obtain ⟨d, M⟩ := H
  obtain ⟨d', M'⟩ := H'
  obtain rfl : d = d' := d1.trans d1'.symm
  exact eigen_sorted d2' hw' hwo' hw hwo he' he _ (fun z => by
    rw [d3 z, d3' z, state_dot hb hn d1]
    exact form_within _ hI hd hε hη hI' B hB _) ⟨k, hk⟩

/-- C115. The lowest energy is a concave function of all the couplings: on the segment between two sets of couplings it lies above the segment between
the energies. -/
theorem C115_concave (E : Env) (c : Config) (nbh nbv nb : Nat) (hc : RectConf c nbh nbv nb) (hf : c.Full)
    (hn : c.nholes + c.nbeta ≤ c.nsites) (I I' : Interactions K) (x y : K) (hx : 0 ≤ x) (hy : 0 ≤ y) (B : BoolInteractions)
    (r : List Nat) (v : Bool) (dets : List (List Nat)) (hb : constructBasis c = .ok dets) (H H' H'' : SpMat K)
    (hH : buildHamiltonian E c I dets B r v = .ok H) (hH' : buildHamiltonian E c I' dets B r v = .ok H')
    (hH'' : buildHamiltonian E c (lincomb x y I I') dets B r v = .ok H'')
    (e : Fin H.dim → K) (w : Fin H.dim → Fin H.dim → K) (hw : ∀ k, H.toMatrix *ᵥ w k = e k • w k)
    (hwo : ∀ i j, w i ⬝ᵥ w j = if i = j then 1 else 0)
    (e' : Fin H'.dim → K) (w' : Fin H'.dim → Fin H'.dim → K) (hw' : ∀ k, H'.toMatrix *ᵥ w' k = e' k • w' k)
    (hwo' : ∀ i j, w' i ⬝ᵥ w' j = if i = j then 1 else 0) (m m' m'' : K) (hm : ∀ k, m ≤ e k) (hm' : ∀ k, m' ≤ e' k)
    (z : Fin H''.dim → K) (hz : z ≠ 0) (hzz : H''.toMatrix *ᵥ z = m'' • z) : x * m + y * m' ≤ m'' := by
  obtain ⟨d1, d2, d3⟩ := built_form hc hf hn hb hH
  obtain ⟨d1', d2', _⟩ := built_form hc hf hn hb hH'
  obtain ⟨d1'', _, _⟩ := built_form hc hf hn hb hH''
  obtain ⟨N, N'', n1, n2, n3⟩ := C35_linear E c I I' dets B r v H hH x y
  obtain rfl := Except.ok.inj (hH'.symm.trans n1)
  obtain rfl := Except.ok.inj (hH''.symm.trans n2)
  clear hH hH' hH'' n1 n2
  obtain ⟨d, M⟩ := H
  obtain ⟨d', M'⟩ := H'
  obtain ⟨d'', M''⟩ := H''
  obtain rfl : d = d' := d1.trans d1'.symm
  obtain rfl : d = d'' := d1.trans d1''.symm
  have l1 := lowest_le_quotient d2 hw hwo m hm z
  have l2 := lowest_le_quotient d2' hw' hwo' m' hm' z
  have hl : (SpMat.mk d M'' : SpMat K).toMatrix = x • (SpMat.mk d M : SpMat K).toMatrix + y • (SpMat.mk d M' : SpMat K).toMatrix := by
    ext i j
    exact n3 i j
  have l3 : z ⬝ᵥ ((SpMat.mk d M'' : SpMat K).toMatrix *ᵥ z) = m'' * (z ⬝ᵥ z) := by rw [hzz, dotProduct_smul, smul_eq_mul]
  rw [hl, add_mulVec, dotProduct_add, smul_mulVec, smul_mulVec, dotProduct_smul, dotProduct_smul, smul_eq_mul, smul_eq_mul] at l3
  have hpos : 0 < z ⬝ᵥ z := by
    obtain ⟨i, hi⟩ := Function.ne_iff.1 hz
    exact sum_pos' (fun i _ => mul_self_nonneg _) ⟨i, mem_univ i, mul_self_pos.2 hi⟩
  refine le_of_mul_le_mul_right ?_ hpos
  rw [← l3, add_mul, mul_assoc, mul_assoc]
  exact add_le_add (mul_le_mul_of_nonneg_left l1 hx) (mul_le_mul_of_nonneg_left l2 hy)

end

/-- Every symmetric real matrix has an orthonormal basis of eigenvectors with the eigenvalues in ascending order. -/
theorem exists_sorted {n : Nat} (M : Matrix (Fin n) (Fin n) ℝ) (hM : M.IsSymm) : ∃ (e : Fin n → ℝ) (w : Fin n → Fin n → ℝ),
    (∀ k, M *ᵥ w k = e k • w k) ∧ (∀ i j, w i ⬝ᵥ w j = if i = j then 1 else 0) ∧ Monotone e := by
  obtain ⟨⟨e, w⟩, h1, h2⟩ := exists_eigh n M
  refine ⟨e ∘ Tuple.sort e, w ∘ Tuple.sort e, fun k => h1 hM _, fun i j => ?_, Tuple.monotone_sort e⟩
  have := h2 (Tuple.sort e i) (Tuple.sort e j)
  simp only [EmbeddingLike.apply_eq_iff_eq] at this
  exact this

/-- Couplings and others with less exchange and more repulsion. -/
noncomputable def exRaised : Interactions ℝ × Interactions ℝ :=
  (⟨1, 4 / 5, 3 / 5, 1 / 2, 1 / 10, 1 / 5, 1 / 3, 1 / 4, 1 / 2, 1 / 4⟩, ⟨1, 2 / 5, 1 / 5, 1 / 4, 1 / 10, 1 / 5, 1 / 3, 1 / 4, 1, 1 / 3⟩)

theorem exRaised_ok : Raised exRaised.1 exRaised.2 ∧ Within exRaised.1 exRaised.2 (1 / 2) (1 / 2) (1 / 4) := by
  refine ⟨⟨⟨rfl, rfl, rfl, rfl, rfl⟩, ?_, ?_⟩, ⟨?_, ?_⟩⟩ <;> norm_num [exRaised]

/-- Four by four sites in four blocks with two holes and all terms: the matrices are built, have such bases, and the energies are compared. -/
example (E : Env) : ∃ H H' : SpMat ℝ, ∃ (e : Fin H.dim → ℝ) (e' : Fin H'.dim → ℝ) (w : Fin H.dim → Fin H.dim → ℝ)
    (w' : Fin H'.dim → Fin H'.dim → ℝ), (∀ k, H.toMatrix *ᵥ w k = e k • w k) ∧ (∀ k, H'.toMatrix *ᵥ w' k = e' k • w' k) ∧
    H.dim = H'.dim ∧ ∀ k (hk : k < H.dim) (hk' : k < H'.dim), e ⟨k, hk⟩ ≤ e' ⟨k, hk'⟩ := by
  have hc := rectConf_ok 2 2 2 2 7 (by decide) (by decide) (by decide)
  have hf : (rectConf 2 2 2 2 7).Full := by unfold Config.Full; decide +kernel
  have hn : (rectConf 2 2 2 2 7).nholes + (rectConf 2 2 2 2 7).nbeta ≤ (rectConf 2 2 2 2 7).nsites := by decide +kernel
  obtain ⟨dets, hb⟩ : ∃ dets, constructBasis (rectConf 2 2 2 2 7) = .ok dets := ⟨_, constructBasis_eq _⟩
  obtain ⟨H, h1, _⟩ := buildHamiltonian_spec exRaised.1 (hc.tj E) hf hn hb ⟨true, true, true, true, true, true⟩ [] false
  obtain ⟨H', h1', _⟩ := buildHamiltonian_spec exRaised.2 (hc.tj E) hf hn hb ⟨true, true, true, true, true, true⟩ [] false
  obtain ⟨e, w, a1, a2, a3⟩ := exists_sorted _ (built_form hc hf hn hb h1).2.1
  obtain ⟨e', w', b1, b2, b3⟩ := exists_sorted _ (built_form hc hf hn hb h1').2.1
  exact ⟨H, H', e, e', w, w', a1, b1, C115_monotone E _ 2 2 2 hc hf hn _ _ exRaised_ok.1 _ (fun _ => rfl) [] false dets hb H H' h1 h1'
    e w a1 a2 a3 e' w' b1 b2 b3⟩

/-- C115. With the exchanges of the spins without the static part, the claim is false: on two sites a smaller exchange leaves an energy lower. -/
theorem C115_flip_alone : ∃ (c : Config) (I I' : Interactions ℚ) (dets : List (List Nat)) (H H' : SpMat ℚ),
    RectConf c 2 1 1 ∧ constructBasis c = .ok dets ∧ Raised I I' ∧
    buildHamiltonian exEnv c I dets ⟨false, false, true, false, false, false⟩ = .ok H ∧
    buildHamiltonian exEnv c I' dets ⟨false, false, true, false, false, false⟩ = .ok H' ∧
    (∃ z : Fin H.dim → ℚ, z ≠ 0 ∧ H.toMatrix *ᵥ z = (1 : ℚ) • z) ∧
    ∀ (m : ℚ) (z : Fin H'.dim → ℚ), z ≠ 0 → H'.toMatrix *ᵥ z = m • z → m = 0 := by
  have hc := rectConf_ok 2 1 1 0 1 (by decide) (by decide) (by decide)
  have ok : ∀ {x : Except PyErr (SpMat ℚ)} {d : Nat} {l : Coo ℚ}, x.map (fun H => (H.dim, H.coo)) = .ok (d, l) → x = .ok ⟨d, l⟩ := by
    intro x d l h
    cases x with
    | error e => cases h
    | ok H => obtain ⟨d', l'⟩ := H; cases h; rfl
  refine ⟨rectConf 2 1 1 0 1, ⟨0, 2, 0, 0, 0, 0, 0, 0, 0, 0⟩, ⟨0, 0, 0, 0, 0, 0, 0, 0, 0, 0⟩, [[0, 1], [1, 0]],
    ⟨2, [(1, 0, 1), (1, 1, 0)]⟩, ⟨2, [(0, 0, 1), (0, 1, 0)]⟩, hc, by decide, ?_, ok (by decide +kernel), ok (by decide +kernel), ?_, ?_⟩
  · constructor <;> norm_num
  · refine ⟨![1, 1], fun h => by simpa using congrFun h 0, ?_⟩
    have : (SpMat.mk 2 [(1, 0, 1), (1, 1, 0)] : SpMat ℚ).toMatrix = !![0, 1; 1, 0] := by
      ext i j
      fin_cases i <;> fin_cases j <;> decide +kernel
    rw [this]
    funext i
    fin_cases i <;> simp [mulVec, dotProduct]
  · intro m z hz h
    obtain ⟨i, hi⟩ := Function.ne_iff.1 hz
    have h1 := congrFun h i
    have h2 : (SpMat.mk 2 [(0, 0, 1), (0, 1, 0)] : SpMat ℚ).toMatrix = 0 := by
      ext i j
      fin_cases i <;> fin_cases j <;> decide +kernel
    rw [h2, zero_mulVec] at h1
    exact (by simpa using h1.symm : m = 0 ∨ z i = 0).resolve_right hi

end TJ
