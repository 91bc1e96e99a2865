/-
The matrix of the code and the matrix of fermions: when they differ by signs of the basis vectors only.
-/
import Verif.Lemmas.FermiSites
import Mathlib.Order.Interval.Finset.Fin

namespace TJ

open Finset Matrix

section
variable {K : Type} [Field K] {n : Nat} (I : Interactions K) (pos : Fin n → Pt) (B : BoolInteractions)

/-- Hopping with the signs of the electrons passed by. -/
def hopF (σ τ : Conf n) : K :=
  ∑ a, ∑ b, if σ a = .hole ∧ σ b ≠ .hole ∧ Near (pos a) (pos b) ∧ τ = exch σ a b then I.t * jumpSign K σ a b else 0

/-- Hopping by two bonds with the signs of the electrons passed by. -/
def nextF (σ τ : Conf n) : K :=
  ∑ a, ∑ b, if σ a = .hole ∧ σ b ≠ .hole ∧ (∃ m, Near (pos a) (pos m) ∧ Near (pos m) (pos b)) ∧ τ = exch σ a b
    then (if (pos a).1 = (pos b).1 ∨ (pos a).2 = (pos b).2 then I.tnNNN else I.tNNN) * jumpSign K σ a b else 0

/-- The fermionic matrix element in the numbering site by site. -/
theorem fermi_sites (σ τ : Conf n) : fermiEl siteOrder I pos B σ τ =
    (if B.bt then hopF I pos σ τ else 0) + (if B.bz then staticEl I pos σ τ else 0) + (if B.bij then flipEl I pos σ τ else 0)
      + (if B.btN then nextF I pos σ τ else 0) + (if B.bV then repEl I pos σ τ else 0) := by
  have t1 : (∑ a, ∑ b, if Near (pos a) (pos b) then I.t * (transfer siteOrder b a : Matrix _ _ K) (fock τ) (fock σ) else 0) = hopF I pos σ τ := by
    refine sum_congr rfl fun a _ => sum_congr rfl fun b _ => ?_
    by_cases h : Near (pos a) (pos b)
    · rw [if_pos h, transfer_fock σ τ (fun e => by rw [e] at h; unfold Near at h; simp at h), mul_ite, mul_zero]
      exact if_congr ⟨fun h' => ⟨h'.1, h'.2.1, h, h'.2.2⟩, fun h' => ⟨h'.1, h'.2.1, h'.2.2.2⟩⟩ rfl rfl
    · rw [if_neg h, if_neg (fun h' => h h'.2.2.1)]
  have t2 : (∑ a, ∑ b, if a < b ∧ Near (pos a) (pos b) then Jeff I pos σ a b * (isingOp siteOrder a b : Matrix _ _ K) (fock τ) (fock σ) else 0) =
      staticEl I pos σ τ := by
    unfold staticEl
    by_cases h : τ = σ
    · rw [if_pos h]
      refine sum_congr rfl fun a _ => sum_congr rfl fun b _ => ?_
      rw [ising_fock, if_pos h]
      by_cases h1 : a < b ∧ Near (pos a) (pos b)
      · rw [if_pos h1, mul_ite, mul_zero]
        exact if_congr ⟨fun h' => ⟨h1.1, h1.2, h'.1, h'.2⟩, fun h' => ⟨h'.2.2.1, h'.2.2.2⟩⟩ rfl rfl
      · rw [if_neg h1, if_neg (fun h' => h1 ⟨h'.1, h'.2.1⟩)]
    · rw [if_neg h]
      refine sum_eq_zero fun a _ => sum_eq_zero fun b _ => ?_
      rw [ising_fock, if_neg h, mul_zero, ite_self]
  have t3 : (∑ a, ∑ b, if a < b ∧ Near (pos a) (pos b) then Jeff I pos σ a b * (flipOp siteOrder a b : Matrix _ _ K) (fock τ) (fock σ) else 0) =
      flipEl I pos σ τ := by
    refine sum_congr rfl fun a _ => sum_congr rfl fun b _ => ?_
    by_cases h1 : a < b ∧ Near (pos a) (pos b)
    · rw [if_pos h1, flip_fock σ τ h1.1.ne, mul_ite, mul_zero, mul_one_div]
      exact if_congr ⟨fun h' => ⟨h1.1, h1.2, h'⟩, fun h' => h'.2.2⟩ rfl rfl
    · rw [if_neg h1, if_neg (fun h' => h1 ⟨h'.1, h'.2.1⟩)]
  have t4 : (∑ a, ∑ b, if a ≠ b ∧ ∃ m, Near (pos a) (pos m) ∧ Near (pos m) (pos b)
        then (if (pos a).1 = (pos b).1 ∨ (pos a).2 = (pos b).2 then I.tnNNN else I.tNNN) * (transfer siteOrder b a : Matrix _ _ K) (fock τ) (fock σ)
        else 0) = nextF I pos σ τ := by
    refine sum_congr rfl fun a _ => sum_congr rfl fun b _ => ?_
    by_cases h : a ≠ b ∧ ∃ m, Near (pos a) (pos m) ∧ Near (pos m) (pos b)
    · rw [if_pos h, transfer_fock σ τ h.1, mul_ite, mul_zero]
      exact if_congr ⟨fun h' => ⟨h'.1, h'.2.1, h.2, h'.2.2⟩, fun h' => ⟨h'.1, h'.2.1, h'.2.2.2⟩⟩ rfl rfl
    · rw [if_neg h, if_neg]
      rintro ⟨h1, h2, h3, _⟩
      exact h ⟨fun e => h2 (e ▸ h1), h3⟩
  unfold fermiEl
  rw [t1, t2, t3, t4]

/-! ### Change of the numbering -/

/-- Two operators that differ by the signs of the basis vectors. -/
def SameUpTo {X : Type} [Fintype X] [DecidableEq X] (d : X → K) (A A' : Matrix X X K) : Prop := A = diagonal d * A' * diagonal d

section
variable {X : Type} [Fintype X] [DecidableEq X] {d : X → K} {A A' C C' : Matrix X X K}

theorem SameUpTo.mul (hd : ∀ x, d x * d x = 1) (h : SameUpTo d A A') (h' : SameUpTo d C C') : SameUpTo d (A * C) (A' * C') := by
  unfold SameUpTo at *
  have e : diagonal d * diagonal d = 1 := by
    rw [diagonal_mul_diagonal]
    simp [hd]
  rw [h, h']
  calc diagonal d * A' * diagonal d * (diagonal d * C' * diagonal d) = diagonal d * A' * (diagonal d * diagonal d) * C' * diagonal d := by
        simp only [Matrix.mul_assoc]
    _ = diagonal d * (A' * C') * diagonal d := by rw [e]; simp only [Matrix.mul_assoc, Matrix.one_mul]

theorem SameUpTo.add (h : SameUpTo d A A') (h' : SameUpTo d C C') : SameUpTo d (A + C) (A' + C') := by
  unfold SameUpTo at *
  rw [h, h', Matrix.mul_add, Matrix.add_mul]

theorem SameUpTo.sub (h : SameUpTo d A A') (h' : SameUpTo d C C') : SameUpTo d (A - C) (A' - C') := by
  unfold SameUpTo at *
  rw [h, h', Matrix.mul_sub, Matrix.sub_mul]

theorem SameUpTo.smul (x : K) (h : SameUpTo d A A') : SameUpTo d (x • A) (x • A') := by
  unfold SameUpTo at *
  rw [h, Matrix.mul_smul, Matrix.smul_mul]

theorem SameUpTo.transpose (h : SameUpTo d A A') : SameUpTo d A.transpose A'.transpose := by
  unfold SameUpTo at *
  rw [h, transpose_mul, transpose_mul, diagonal_transpose, Matrix.mul_assoc]

theorem SameUpTo.sum {ι : Type} (s : Finset ι) {F F' : ι → Matrix X X K} (h : ∀ i, SameUpTo d (F i) (F' i)) :
    SameUpTo d (∑ i ∈ s, F i) (∑ i ∈ s, F' i) := by
  unfold SameUpTo at *
  rw [Matrix.mul_sum, Matrix.sum_mul]
  exact sum_congr rfl fun i _ => h i

theorem SameUpTo.entry (h : SameUpTo d A A') (x y : X) : A x y = d y * d x * A' x y := by
  unfold SameUpTo at h
  rw [h, mul_diagonal, diagonal_mul]
  ring

end

variable {r : Mode n → Nat}

/-- Another numbering of the modes changes the signs of the basis vectors. -/
theorem fermi_order (hr : Function.Injective r) (σ τ : Conf n) : fermiEl r I pos B σ τ =
    orderSign K r siteOrder (fock σ) * orderSign K r siteOrder (fock τ) * fermiEl siteOrder I pos B σ τ := by
  set d := orderSign K r (siteOrder (n := n)) with hd
  have sq : ∀ S, d S * d S = 1 := orderSign_sq r siteOrder
  have s1 : ∀ m, SameUpTo d (annih K r m) (annih K siteOrder m) := annih_order hr siteOrder_inj
  have s2 : ∀ m, SameUpTo d (create K r m) (create K siteOrder m) := fun m => (s1 m).transpose
  have t1 : ∀ a b, SameUpTo d (transfer r a b : Matrix _ _ K) (transfer siteOrder a b) :=
    fun a b => SameUpTo.sum _ fun s => (s2 _).mul sq (s1 _)
  have t2 : ∀ a s, SameUpTo d (number r a s : Matrix _ _ K) (number siteOrder a s) := fun a s => (s2 _).mul sq (s1 _)
  have t3 : ∀ a s u, SameUpTo d (ladder r a s u : Matrix _ _ K) (ladder siteOrder a s u) := fun a s u => (s2 _).mul sq (s1 _)
  have t4 : ∀ a b, SameUpTo d (isingOp r a b : Matrix _ _ K) (isingOp siteOrder a b) := fun a b =>
    ((((t2 a true).sub (t2 a false)).smul _).mul sq (((t2 b true).sub (t2 b false)).smul _)).sub
      ((((t2 a true).add (t2 a false)).mul sq ((t2 b true).add (t2 b false))).smul _)
  have t5 : ∀ a b, SameUpTo d (flipOp r a b : Matrix _ _ K) (flipOp siteOrder a b) := fun a b =>
    (((t3 a false true).mul sq (t3 b true false)).add ((t3 a true false).mul sq (t3 b false true))).smul _
  have push : ∀ (p : Prop) [Decidable p] (x y z : K), x = z * y → (if p then x else 0) = z * if p then y else 0 := by
    intro p _ x y z h
    split_ifs
    · exact h
    · rw [mul_zero]
  unfold fermiEl
  rw [mul_add, mul_add, mul_add, mul_add]
  refine congrArg₂ _ (congrArg₂ _ (congrArg₂ _ (congrArg₂ _ ?_ ?_) ?_) ?_) ?_
  · refine push _ _ _ _ (mul_ite_sum2 _ _ _ _ _ fun a b _ => ?_)
    rw [(t1 b a).entry]
    ring
  · refine push _ _ _ _ (mul_ite_sum2 _ _ _ _ _ fun a b _ => ?_)
    rw [(t4 a b).entry]
    ring
  · refine push _ _ _ _ (mul_ite_sum2 _ _ _ _ _ fun a b _ => ?_)
    rw [(t5 a b).entry]
    ring
  · refine push _ _ _ _ (mul_ite_sum2 _ _ _ _ _ fun a b _ => ?_)
    rw [(t1 b a).entry]
    ring
  · refine push _ _ _ _ ?_
    unfold repEl
    by_cases h : τ = σ
    · rw [if_pos h, h, sq, one_mul]
    · rw [if_neg h, mul_zero]

/-! ### Equivalence -/

/-- The couplings with both kinds of hopping multiplied by `x`. -/
def scaleHops (x : K) : Interactions K := { I with t := x * I.t, tNNN := x * I.tNNN, tnNNN := x * I.tnNNN }

/-- If signs of the occupations undo the signs of all hops, they turn the fermionic matrix into that of the code. -/
theorem gauge_ham {B : BoolInteractions} (hB : B.bSD = false) (g : Conf n → K) (κ : K) {σ : Conf n} (h0 : g σ * g σ = 1)
    (h1 : ∀ τ, SameHoles σ τ → g τ = g σ)
    (h2 : B.bt = true → ∀ a b, σ a = .hole → σ b ≠ .hole → Near (pos a) (pos b) → g σ * g (exch σ a b) * jumpSign K σ a b = κ)
    (h3 : B.btN = true → ∀ a b, σ a = .hole → σ b ≠ .hole → (∃ m, Near (pos a) (pos m) ∧ Near (pos m) (pos b)) →
      g σ * g (exch σ a b) * jumpSign K σ a b = κ) (τ : Conf n) :
    hamEl (scaleHops I κ) pos B σ τ = g σ * g τ * fermiEl siteOrder I pos B σ τ := by
  have push : ∀ (p : Bool) (x y z : K), (p = true → x = z * y) → (if p then x else 0) = z * if p then y else 0 := by
    intro p x y z h
    cases p
    · simp
    · simpa using h rfl
  rw [fermi_sites]
  unfold hamEl
  have e : (if B.bSD then sdEl (scaleHops I κ) pos σ τ else 0) = 0 := by rw [hB]; rfl
  rw [e, add_zero, mul_add, mul_add, mul_add, mul_add]
  refine congrArg₂ _ (congrArg₂ _ (congrArg₂ _ (congrArg₂ _ ?_ ?_) ?_) ?_) ?_
  · refine push _ _ _ _ fun hb => mul_ite_sum2 _ _ _ _ _ ?_
    rintro a b ⟨k1, k2, k3, rfl⟩
    have := h2 hb a b k1 k2 k3
    show κ * I.t = _
    rw [← this]
    ring
  · refine push _ _ _ _ fun _ => ?_
    unfold staticEl
    by_cases h : τ = σ
    · rw [if_pos h, if_pos h, h, h0, one_mul]
      rfl
    · rw [if_neg h, if_neg h, mul_zero]
  · refine push _ _ _ _ fun _ => mul_ite_sum2 _ _ _ _ _ ?_
    rintro a b ⟨k1, k2, k3, k4, k5, rfl⟩
    rw [h1 _ (fun s => (exch_hole_iff k3 k4 s).symm), h0, one_mul]
    rfl
  · refine push _ _ _ _ fun hb => mul_ite_sum2 _ _ _ _ _ ?_
    rintro a b ⟨k1, k2, k3, rfl⟩
    have := h3 hb a b k1 k2 k3
    have e2 : (if (pos a).1 = (pos b).1 ∨ (pos a).2 = (pos b).2 then (scaleHops I κ).tnNNN else (scaleHops I κ).tNNN) =
        κ * if (pos a).1 = (pos b).1 ∨ (pos a).2 = (pos b).2 then I.tnNNN else I.tNNN := by
      split_ifs <;> rfl
    rw [e2, ← this]
    ring
  · refine push _ _ _ _ fun _ => ?_
    unfold repEl
    by_cases h : τ = σ
    · rw [if_pos h, if_pos h, h, h0, one_mul]
      rfl
    · rw [if_neg h, if_neg h, mul_zero]

/-! ### One hole -/

/-- The sites in one line. -/
def inLine (s : Fin n) : Pt := ((s.1 : Int), 0)

theorem colour_line (s : Fin n) : (colourSign (inLine s) : K) = (-1) ^ s.1 := by
  unfold colourSign inLine
  rcases Nat.even_or_odd s.1 with h | h
  · rw [h.neg_one_pow, if_pos]
    obtain ⟨k, hk⟩ := h
    show ((s.1 : Int) + 0) % 2 = 0
    omega
  · rw [h.neg_one_pow, if_neg]
    obtain ⟨k, hk⟩ := h
    show ¬ ((s.1 : Int) + 0) % 2 = 0
    omega

theorem jump_all {σ : Conf n} {a b : Fin n} (hall : ∀ z, σ z = .hole → z = a) (hab : a ≠ b) :
    jumpSign K σ a b = - ((-1) ^ a.1 * (-1) ^ b.1) := by
  have e : jumpSign K σ a b = (-1) ^ (univ.filter fun z : Fin n => (a < z ∧ z < b) ∨ (b < z ∧ z < a)).card := by
    unfold jumpSign
    rw [← prod_const, prod_filter]
    refine prod_congr rfl fun z _ => if_congr ?_ rfl rfl
    refine ⟨fun h => h.1, fun h => ⟨h, fun hz => ?_⟩⟩
    have := hall z hz
    subst this
    rcases h with h | h
    · exact lt_irrefl _ h.1
    · exact lt_irrefl _ h.2
  rw [e]
  rcases lt_or_gt_of_ne hab with h | h
  · have e2 : (univ.filter fun z : Fin n => (a < z ∧ z < b) ∨ (b < z ∧ z < a)) = Ioo a b := by
      ext z
      simp only [mem_filter, mem_univ, true_and, mem_Ioo]
      exact ⟨fun k => k.resolve_right (fun k => lt_asymm h (k.1.trans k.2)), Or.inl⟩
    have h : a.1 < b.1 := h
    rw [e2, Fin.card_Ioo]
    obtain ⟨k, hk⟩ := Nat.exists_eq_add_of_lt h
    have e3 : b.1 - a.1 - 1 = k := by omega
    rw [e3, hk, pow_add, pow_add, pow_one]
    linear_combination (- (-1 : K) ^ k) * neg_one_sq_pow (K := K) a.1
  · have e2 : (univ.filter fun z : Fin n => (a < z ∧ z < b) ∨ (b < z ∧ z < a)) = Ioo b a := by
      ext z
      simp only [mem_filter, mem_univ, true_and, mem_Ioo]
      exact ⟨fun k => k.resolve_left (fun k => lt_asymm h (k.1.trans k.2)), Or.inr⟩
    have h : b.1 < a.1 := h
    rw [e2, Fin.card_Ioo]
    obtain ⟨k, hk⟩ := Nat.exists_eq_add_of_lt h
    have e3 : a.1 - b.1 - 1 = k := by omega
    rw [e3, hk, pow_add, pow_add, pow_one]
    linear_combination (- (-1 : K) ^ k) * neg_one_sq_pow (K := K) b.1

theorem one_hole_gauge {σ : Conf n} (h1 : σ.count .hole = 1) {a b : Fin n} (ha : σ a = .hole) (hb : σ b ≠ .hole) :
    holeSign (inLine (n := n)) σ * holeSign inLine (exch σ a b) * jumpSign K σ a b = -1 := by
  have hall : ∀ z, σ z = .hole → z = a := by
    intro z hz
    unfold Conf.count at h1
    obtain ⟨x, hx⟩ := card_eq_one.1 h1
    have h2 : z ∈ ({x} : Finset (Fin n)) := by rw [← hx]; exact mem_filter.2 ⟨mem_univ _, hz⟩
    have h3 : a ∈ ({x} : Finset (Fin n)) := by rw [← hx]; exact mem_filter.2 ⟨mem_univ _, ha⟩
    rw [mem_singleton.1 h2, mem_singleton.1 h3]
  have hab : a ≠ b := fun e => hb (e ▸ ha)
  rw [holeSign_exch _ ha hb, colour_line, colour_line, jump_all hall hab]
  have e1 := neg_one_sq_pow (K := K) a.1
  have e2 := neg_one_sq_pow (K := K) b.1
  linear_combination (-((-1 : K) ^ b.1 * (-1) ^ b.1)) * e1 - e2

/-- On a row an electron passes no other electron. -/
theorem jump_row {pos : Fin n → Pt} (hrow : ∀ a b, Near (pos a) (pos b) → a.1 + 1 = b.1 ∨ b.1 + 1 = a.1) (σ : Conf n) {a b : Fin n}
    (h : Near (pos a) (pos b)) : jumpSign K σ a b = 1 := by
  unfold jumpSign
  refine prod_eq_one fun z _ => if_neg ?_
  rintro ⟨h1 | h1, _⟩ <;> rcases hrow a b h with h2 | h2 <;>
    (have k1 := Fin.lt_def.1 h1.1; have k2 := Fin.lt_def.1 h1.2; omega)

end

end TJ
