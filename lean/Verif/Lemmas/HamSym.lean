/-
Symmetries of the textbook matrix elements.
-/
import Verif.Spec.Hamiltonian
import Mathlib.Algebra.BigOperators.Ring.Finset
import Mathlib.Tactic.Ring
import Mathlib.Tactic.Abel

namespace TJ

open Finset

theorem exch_comm {n : Nat} (σ : Conf n) (a b : Fin n) : exch σ a b = exch σ b a := by
  unfold exch; rw [Equiv.swap_comm]

theorem exch_exch {n : Nat} (σ : Conf n) (a b : Fin n) : exch (exch σ a b) a b = σ := by
  funext s; unfold exch; rw [Equiv.swap_apply_self]

theorem exch_left {n : Nat} (σ : Conf n) (a b : Fin n) : exch σ a b a = σ b := by
  unfold exch; rw [Equiv.swap_apply_left]

theorem exch_right {n : Nat} (σ : Conf n) (a b : Fin n) : exch σ a b b = σ a := by
  unfold exch; rw [Equiv.swap_apply_right]

theorem exch_other {n : Nat} (σ : Conf n) {a b s : Fin n} (h1 : s ≠ a) (h2 : s ≠ b) : exch σ a b s = σ s := by
  unfold exch; rw [Equiv.swap_apply_of_ne_of_ne h1 h2]

theorem near_symm {p q : Pt} : Near p q ↔ Near q p := by unfold Near; omega

theorem aligned_rev {p q r : Pt} : Aligned p q r ↔ Aligned r q p := by unfold Aligned; omega

theorem diag_symm {p q : Pt} : Diagonal p q ↔ Diagonal q p := by unfold Diagonal; omega

theorem Occ.rev_hole_iff {o : Occ} : o.rev = .hole ↔ o = .hole := by cases o <;> simp [Occ.rev]

theorem Occ.rev_inj {o p : Occ} : o.rev = p.rev ↔ o = p := by cases o <;> cases p <;> simp [Occ.rev]

theorem Occ.rev_rev' (o : Occ) : o.rev.rev = o := by cases o <;> rfl

section
variable {K : Type} [Field K] {n : Nat} (I : Interactions K) (pos : Fin n → Pt)

theorem HoleNext.congr {σ τ : Conf n} (h : ∀ s, σ s = .hole ↔ τ s = .hole) (a b : Fin n) :
    HoleNext pos σ a b ↔ HoleNext pos τ a b := by
  unfold HoleNext
  simp only [h]

theorem HoleInline.congr {σ τ : Conf n} (h : ∀ s, σ s = .hole ↔ τ s = .hole) (a b : Fin n) :
    HoleInline pos σ a b ↔ HoleInline pos τ a b := by
  unfold HoleInline
  simp only [h]

theorem Jeff_congr {σ τ : Conf n} (h : ∀ s, σ s = .hole ↔ τ s = .hole) (a b : Fin n) :
    Jeff I pos σ a b = Jeff I pos τ a b := by
  unfold Jeff
  simp only [HoleNext.congr pos h, HoleInline.congr pos h]

theorem aligned_swap {p q r : Pt} : Aligned p q r ↔ Aligned q p r := by unfold Aligned; omega

theorem Jeff_comm (σ : Conf n) (a b : Fin n) : Jeff I pos σ a b = Jeff I pos σ b a := by
  unfold Jeff
  have h1 : HoleNext pos σ a b ↔ HoleNext pos σ b a := by
    unfold HoleNext
    simp only [or_comm]
  have h2 : HoleInline pos σ a b ↔ HoleInline pos σ b a := by
    unfold HoleInline
    constructor <;> rintro ⟨x, h1, h2, h3⟩ <;> exact ⟨x, h1, h2.symm, aligned_swap.1 h3⟩
  simp only [h1, h2]

theorem exch_hole_iff {σ : Conf n} {a b : Fin n} (ha : σ a ≠ .hole) (hb : σ b ≠ .hole) (s : Fin n) :
    exch σ a b s = .hole ↔ σ s = .hole := by
  by_cases h1 : s = a
  · subst h1; rw [exch_left]; simp [ha, hb]
  · by_cases h2 : s = b
    · subst h2; rw [exch_right]; simp [ha, hb]
    · rw [exch_other σ h1 h2]

/-! ### Transposition -/

theorem exch_cond {σ τ : Conf n} {a b : Fin n} (h1 : σ a = .hole) (h2 : σ b ≠ .hole) (h : τ = exch σ a b) :
    τ b = .hole ∧ τ a ≠ .hole ∧ σ = exch τ b a := by
  subst h
  rw [exch_left, exch_right, exch_comm (exch σ a b), exch_exch]
  exact ⟨h1, h2, rfl⟩

theorem hopEl_symm (σ τ : Conf n) : hopEl I pos σ τ = hopEl I pos τ σ := by
  have key : ∀ σ τ : Conf n, ∀ a b, σ a = .hole ∧ σ b ≠ .hole ∧ Near (pos a) (pos b) ∧ τ = exch σ a b →
      τ b = .hole ∧ τ a ≠ .hole ∧ Near (pos b) (pos a) ∧ σ = exch τ b a := by
    rintro σ τ a b ⟨h1, h2, h3, h4⟩
    obtain ⟨g1, g2, g3⟩ := exch_cond h1 h2 h4
    exact ⟨g1, g2, near_symm.1 h3, g3⟩
  unfold hopEl
  rw [sum_comm]
  exact sum_congr rfl (fun a _ => sum_congr rfl (fun b _ => if_congr ⟨key σ τ b a, key τ σ a b⟩ rfl rfl))

theorem nextEl_symm (σ τ : Conf n) : nextEl I pos σ τ = nextEl I pos τ σ := by
  have key : ∀ σ τ : Conf n, ∀ a b, σ a = .hole ∧ σ b ≠ .hole ∧ (∃ m, Near (pos a) (pos m) ∧ Near (pos m) (pos b)) ∧
        τ = exch σ a b →
      τ b = .hole ∧ τ a ≠ .hole ∧ (∃ m, Near (pos b) (pos m) ∧ Near (pos m) (pos a)) ∧ σ = exch τ b a := by
    rintro σ τ a b ⟨h1, h2, ⟨m, h3, h3'⟩, h4⟩
    obtain ⟨g1, g2, g3⟩ := exch_cond h1 h2 h4
    exact ⟨g1, g2, ⟨m, near_symm.1 h3', near_symm.1 h3⟩, g3⟩
  unfold nextEl
  rw [sum_comm]
  refine sum_congr rfl (fun a _ => sum_congr rfl (fun b _ => if_congr ⟨key σ τ b a, key τ σ a b⟩ ?_ rfl))
  refine if_congr ?_ rfl rfl
  constructor <;> rintro (h | h)
  · exact Or.inl h.symm
  · exact Or.inr h.symm
  · exact Or.inl h.symm
  · exact Or.inr h.symm

theorem staticEl_symm (σ τ : Conf n) : staticEl I pos σ τ = staticEl I pos τ σ := by
  unfold staticEl
  by_cases h : τ = σ
  · subst h; rfl
  · rw [if_neg h, if_neg (Ne.symm h)]

theorem repEl_symm (σ τ : Conf n) : repEl I pos σ τ = repEl I pos τ σ := by
  unfold repEl
  by_cases h : τ = σ
  · subst h; rfl
  · rw [if_neg h, if_neg (Ne.symm h)]

theorem flipEl_symm (σ τ : Conf n) : flipEl I pos σ τ = flipEl I pos τ σ := by
  have key : ∀ σ τ : Conf n, ∀ a b, a < b ∧ Near (pos a) (pos b) ∧ σ a ≠ .hole ∧ σ b ≠ .hole ∧ σ a ≠ σ b ∧ τ = exch σ a b →
      a < b ∧ Near (pos a) (pos b) ∧ τ a ≠ .hole ∧ τ b ≠ .hole ∧ τ a ≠ τ b ∧ σ = exch τ a b := by
    rintro σ τ a b ⟨h0, h1, h2, h3, h4, rfl⟩
    rw [exch_left, exch_right, exch_exch]
    exact ⟨h0, h1, h3, h2, h4.symm, rfl⟩
  unfold flipEl
  refine sum_congr rfl (fun a _ => sum_congr rfl (fun b _ => ?_))
  by_cases h : a < b ∧ Near (pos a) (pos b) ∧ σ a ≠ .hole ∧ σ b ≠ .hole ∧ σ a ≠ σ b ∧ τ = exch σ a b
  · rw [if_pos h, if_pos (key _ _ _ _ h), Jeff_congr I pos (σ := σ) (τ := τ)]
    obtain ⟨_, _, h2, h3, _, rfl⟩ := h
    exact fun s => (exch_hole_iff h2 h3 s).symm
  · rw [if_neg h, if_neg (fun g => h (key _ _ _ _ g))]

theorem shift3_cond {σ τ : Conf n} {a m b : Fin n} (ham : a ≠ m) (hmb : m ≠ b) (h1 : σ a = .hole) (h2 : σ m ≠ .hole)
    (h3 : σ b = (σ m).rev) (h : τ = shift3 σ a m b) :
    τ b = .hole ∧ τ m ≠ .hole ∧ τ a = (τ m).rev ∧ σ = shift3 τ b m a := by
  have hb : σ b ≠ .hole := by rw [h3]; exact fun g => h2 (Occ.rev_hole_iff.1 g)
  have hab : a ≠ b := by rintro rfl; exact hb h1
  have e1 : τ a = σ m := by rw [h]; unfold shift3; rw [if_pos rfl]
  have e2 : τ m = σ b := by rw [h]; unfold shift3; rw [if_neg ham.symm, if_pos rfl]
  have e3 : τ b = σ a := by rw [h]; unfold shift3; rw [if_neg hab.symm, if_neg hmb.symm, if_pos rfl]
  refine ⟨e3.trans h1, by rw [e2]; exact hb, by rw [e1, e2, h3, Occ.rev_rev'], ?_⟩
  funext s
  unfold shift3
  by_cases c1 : s = b
  · subst c1; rw [if_pos rfl, e2]
  · by_cases c2 : s = m
    · subst c2; rw [if_neg c1, if_pos rfl, e1]
    · by_cases c3 : s = a
      · subst c3; rw [if_neg c1, if_neg c2, if_pos rfl, e3]
      · rw [if_neg c1, if_neg c2, if_neg c3, h]
        unfold shift3
        rw [if_neg c3, if_neg c2, if_neg c1]

theorem exch_cond' {σ τ : Conf n} {a m b : Fin n} (ham : a ≠ m) (hmb : m ≠ b) (h1 : σ a = .hole) (h2 : σ m ≠ .hole)
    (h3 : σ b = (σ m).rev) (h : τ = exch σ a b) :
    τ b = .hole ∧ τ m ≠ .hole ∧ τ a = (τ m).rev ∧ σ = exch τ b a := by
  have e : τ m = σ m := by rw [h, exch_other σ ham.symm hmb]
  refine ⟨by rw [h, exch_right, h1], by rw [e]; exact h2, by rw [e, ← h3, h, exch_left], ?_⟩
  rw [h, exch_comm (exch σ a b), exch_exch]

theorem near_ne {a b : Fin n} (h : Near (pos a) (pos b)) : a ≠ b := by
  rintro rfl
  unfold Near at h
  omega

theorem sdEl_symm (σ τ : Conf n) : sdEl I pos σ τ = sdEl I pos τ σ := by
  let C := fun (σ : Conf n) (a m b : Fin n) => σ a = .hole ∧ σ m ≠ .hole ∧ σ b = (σ m).rev ∧ Near (pos a) (pos m) ∧ Near (pos m) (pos b)
  have split : ∀ σ τ : Conf n, ∀ a m b, (if C σ a m b then (if Aligned (pos a) (pos m) (pos b) then I.hSDpar else I.hSDper) *
      ((if τ = shift3 σ a m b then (1 : K) else 0) - (if τ = exch σ a b then 1 else 0)) else 0) =
      (if Aligned (pos a) (pos m) (pos b) then I.hSDpar else I.hSDper) *
      ((if C σ a m b ∧ τ = shift3 σ a m b then (1 : K) else 0) - (if C σ a m b ∧ τ = exch σ a b then 1 else 0)) := by
    intro σ τ a m b
    by_cases h : C σ a m b
    · simp only [h, if_true, true_and]
    · simp only [h, if_false, false_and, sub_zero, mul_zero]
  have k1 : ∀ σ τ : Conf n, ∀ a m b, C σ a m b ∧ τ = shift3 σ a m b → C τ b m a ∧ σ = shift3 τ b m a := by
    rintro σ τ a m b ⟨⟨h1, h2, h3, h4, h5⟩, h⟩
    obtain ⟨g1, g2, g3, g4⟩ := shift3_cond (near_ne pos h4) (near_ne pos h5) h1 h2 h3 h
    exact ⟨⟨g1, g2, g3, near_symm.1 h5, near_symm.1 h4⟩, g4⟩
  have k2 : ∀ σ τ : Conf n, ∀ a m b, C σ a m b ∧ τ = exch σ a b → C τ b m a ∧ σ = exch τ b a := by
    rintro σ τ a m b ⟨⟨h1, h2, h3, h4, h5⟩, h⟩
    obtain ⟨g1, g2, g3, g4⟩ := exch_cond' (near_ne pos h4) (near_ne pos h5) h1 h2 h3 h
    exact ⟨⟨g1, g2, g3, near_symm.1 h5, near_symm.1 h4⟩, g4⟩
  have e : ∀ σ τ, sdEl I pos σ τ = ∑ a, ∑ m, ∑ b, (if Aligned (pos a) (pos m) (pos b) then I.hSDpar else I.hSDper) *
      ((if C σ a m b ∧ τ = shift3 σ a m b then (1 : K) else 0) - (if C σ a m b ∧ τ = exch σ a b then 1 else 0)) := by
    intro σ τ
    exact sum_congr rfl (fun a _ => sum_congr rfl (fun m _ => sum_congr rfl (fun b _ => split σ τ a m b)))
  rw [e, e, sum_comm]
  rw [sum_comm (f := fun a m => ∑ b, (if Aligned (pos a) (pos m) (pos b) then I.hSDpar else I.hSDper) *
      ((if C τ a m b ∧ σ = shift3 τ a m b then (1 : K) else 0) - (if C τ a m b ∧ σ = exch τ a b then 1 else 0)))]
  refine sum_congr rfl (fun m _ => ?_)
  rw [sum_comm]
  refine sum_congr rfl (fun a _ => sum_congr rfl (fun b _ => ?_))
  congr 1
  · exact if_congr aligned_rev rfl rfl
  · congr 1
    · exact if_congr ⟨k1 σ τ b m a, k1 τ σ a m b⟩ rfl rfl
    · exact if_congr ⟨k2 σ τ b m a, k2 τ σ a m b⟩ rfl rfl

theorem hamEl_symm (B : BoolInteractions) (σ τ : Conf n) : hamEl I pos B σ τ = hamEl I pos B τ σ := by
  unfold hamEl
  rw [hopEl_symm I pos σ, nextEl_symm I pos σ, staticEl_symm I pos σ, repEl_symm I pos σ, flipEl_symm I pos σ,
    sdEl_symm I pos σ]

/-! ### Spin reversal -/

theorem rev_inj {σ τ : Conf n} : σ.rev = τ.rev ↔ σ = τ := by
  constructor
  · intro h
    funext s
    exact Occ.rev_inj.1 (congrFun h s)
  · rintro rfl; rfl

theorem rev_exch (σ : Conf n) (a b : Fin n) : exch σ.rev a b = (exch σ a b).rev := rfl

theorem rev_shift3 (σ : Conf n) (a m b : Fin n) : shift3 σ.rev a m b = (shift3 σ a m b).rev := by
  funext s
  show shift3 σ.rev a m b s = (shift3 σ a m b s).rev
  unfold shift3 Conf.rev
  split_ifs <;> rfl

theorem rev_hole (σ : Conf n) (s : Fin n) : σ.rev s = .hole ↔ σ s = .hole := Occ.rev_hole_iff

theorem val_rev (o : Occ) : (o.rev.val : K) = - o.val := by
  cases o <;> simp [Occ.rev, Occ.val, neg_div]

theorem hamEl_rev (B : BoolInteractions) (σ τ : Conf n) : hamEl I pos B σ.rev τ.rev = hamEl I pos B σ τ := by
  have hr : ∀ a b, (σ.rev a ≠ σ.rev b) ↔ σ a ≠ σ b := fun a b => not_congr Occ.rev_inj
  have hrr : ∀ b m, (σ.rev b = (σ.rev m).rev) ↔ σ b = (σ m).rev := fun b m => by
    show (σ b).rev = (σ m).rev.rev ↔ _
    exact Occ.rev_inj
  have hJ : ∀ a b, Jeff I pos σ.rev a b = Jeff I pos σ a b := fun a b => Jeff_congr I pos (rev_hole σ) a b
  have hv : ∀ a b, ((σ.rev a).val * (σ.rev b).val : K) = (σ a).val * (σ b).val := by
    intro a b
    show ((σ a).rev.val * (σ b).rev.val : K) = _
    rw [val_rev, val_rev, neg_mul_neg]
  unfold hamEl hopEl staticEl flipEl sdEl nextEl repEl
  simp only [hr, hrr, hJ, hv, rev_hole, rev_exch, rev_shift3, rev_inj, ne_eq]

/-! ### Permutations of the sites -/

theorem sum2_comp {M : Type} [AddCommMonoid M] (e : Fin n ≃ Fin n) (G : Fin n → Fin n → M) :
    ∑ a, ∑ b, G (e a) (e b) = ∑ a, ∑ b, G a b := by
  rw [Equiv.sum_comp e (fun a => ∑ b, G a (e b))]
  exact sum_congr rfl (fun a _ => Equiv.sum_comp e (fun b => G a b))

theorem sum3_comp {M : Type} [AddCommMonoid M] (e : Fin n ≃ Fin n) (G : Fin n → Fin n → Fin n → M) :
    ∑ a, ∑ m, ∑ b, G (e a) (e m) (e b) = ∑ a, ∑ m, ∑ b, G a m b := by
  rw [Equiv.sum_comp e (fun a => ∑ m, ∑ b, G a (e m) (e b))]
  exact sum_congr rfl (fun a _ => sum2_comp e (G a))

/-- Sums over unordered pairs do not depend on the numbering. -/
theorem sum_lt_reindex {M : Type} [AddCommMonoid M] (e : Fin n ≃ Fin n) (g : Fin n → Fin n → M)
    (hg : ∀ a b, g a b = g b a) :
    (∑ a, ∑ b, if a < b then g (e a) (e b) else 0) = ∑ a, ∑ b, if a < b then g a b else 0 := by
  have h1 : (∑ a, ∑ b, if a < b then g (e a) (e b) else 0) =
      ∑ a, ∑ b, if e.symm a < e.symm b then g a b else 0 := by
    have := sum2_comp e (fun a b => if e.symm a < e.symm b then g a b else 0)
    simp only [Equiv.symm_apply_apply] at this
    exact this
  rw [h1]
  have h2 : ∀ a b, (if e.symm a < e.symm b then g a b else 0) =
      (if a < b ∧ e.symm a < e.symm b then g a b else 0) + (if b < a ∧ e.symm a < e.symm b then g b a else 0) := by
    intro a b
    rcases lt_trichotomy a b with h | h | h
    · simp [h, not_lt.2 h.le]
    · subst h; simp
    · rw [hg]; simp [h, not_lt.2 h.le]
  have h3 : ∀ a b, (if a < b then g a b else 0) =
      (if a < b ∧ e.symm a < e.symm b then g a b else 0) + (if a < b ∧ e.symm b < e.symm a then g a b else 0) := by
    intro a b
    by_cases h : a < b
    · have hne : e.symm a ≠ e.symm b := fun g => h.ne (e.symm.injective g)
      rcases lt_or_gt_of_ne hne with h' | h'
      · simp [h, h', not_lt.2 h'.le]
      · simp [h, h', not_lt.2 h'.le]
    · simp [h]
  simp only [h2, h3, sum_add_distrib]
  congr 1
  rw [sum_comm]

theorem comp_exch (σ : Conf n) (e : Fin n ≃ Fin n) (a b : Fin n) :
    exch (fun s => σ (e s)) a b = fun s => exch σ (e a) (e b) (e s) := by
  funext s
  unfold exch
  congr 1
  simp only [Equiv.swap_apply_def, e.injective.eq_iff]
  split_ifs <;> rfl

theorem comp_shift3 (σ : Conf n) (e : Fin n ≃ Fin n) (a m b : Fin n) :
    shift3 (fun s => σ (e s)) a m b = fun s => shift3 σ (e a) (e m) (e b) (e s) := by
  funext s
  unfold shift3
  simp only [e.injective.eq_iff]

theorem comp_inj {σ τ : Conf n} (e : Fin n ≃ Fin n) : ((fun s => σ (e s)) = fun s => τ (e s)) ↔ σ = τ := by
  constructor
  · intro h
    funext s
    have := congrFun h (e.symm s)
    simpa using this
  · rintro rfl; rfl

/-- The matrix elements do not change under a symmetry of the lattice. -/
theorem hamEl_perm (B : BoolInteractions) (e : Fin n ≃ Fin n)
    (hn : ∀ a b, Near (pos (e a)) (pos (e b)) ↔ Near (pos a) (pos b))
    (ha : ∀ a b c, Aligned (pos (e a)) (pos (e b)) (pos (e c)) ↔ Aligned (pos a) (pos b) (pos c))
    (hs : ∀ a b, ((pos (e a)).1 = (pos (e b)).1 ∨ (pos (e a)).2 = (pos (e b)).2) ↔
      ((pos a).1 = (pos b).1 ∨ (pos a).2 = (pos b).2))
    (hd : ∀ a b, Diagonal (pos (e a)) (pos (e b)) ↔ Diagonal (pos a) (pos b))
    (σ τ : Conf n) : hamEl I pos B (fun s => σ (e s)) (fun s => τ (e s)) = hamEl I pos B σ τ := by
  have hN : ∀ a b, HoleNext pos (fun s => σ (e s)) a b ↔ HoleNext pos σ (e a) (e b) := by
    intro a b
    unfold HoleNext
    constructor
    · rintro ⟨x, h1, h2⟩; exact ⟨e x, h1, by simpa only [hn] using h2⟩
    · rintro ⟨x, h1, h2⟩
      obtain ⟨y, rfl⟩ := e.surjective x
      exact ⟨y, h1, by simpa only [hn] using h2⟩
  have hI : ∀ a b, HoleInline pos (fun s => σ (e s)) a b ↔ HoleInline pos σ (e a) (e b) := by
    intro a b
    unfold HoleInline
    constructor
    · rintro ⟨x, h1, h2⟩; exact ⟨e x, h1, by simpa only [hn, ha] using h2⟩
    · rintro ⟨x, h1, h2⟩
      obtain ⟨y, rfl⟩ := e.surjective x
      exact ⟨y, h1, by simpa only [hn, ha] using h2⟩
  have hJ : ∀ a b, Jeff I pos (fun s => σ (e s)) a b = Jeff I pos σ (e a) (e b) := by
    intro a b; unfold Jeff; simp only [hN, hI]
  have hP : ∀ a b, (∃ m, Near (pos a) (pos m) ∧ Near (pos m) (pos b)) ↔
      (∃ m, Near (pos (e a)) (pos m) ∧ Near (pos m) (pos (e b))) := by
    intro a b
    constructor
    · rintro ⟨m, h1, h2⟩; exact ⟨e m, (hn _ _).2 h1, (hn _ _).2 h2⟩
    · rintro ⟨m, h1, h2⟩
      obtain ⟨y, rfl⟩ := e.surjective m
      exact ⟨y, (hn _ _).1 h1, (hn _ _).1 h2⟩
  have hP' := fun a b => (hP a b).symm
  have t1 : hopEl I pos (fun s => σ (e s)) (fun s => τ (e s)) = hopEl I pos σ τ := by
    unfold hopEl
    refine Eq.trans ?_ (sum2_comp e _)
    simp only [comp_exch, comp_inj, hn]
  have t2 : nextEl I pos (fun s => σ (e s)) (fun s => τ (e s)) = nextEl I pos σ τ := by
    unfold nextEl
    refine Eq.trans ?_ (sum2_comp e _)
    simp only [comp_exch, comp_inj, hP', hs]
  have t3 : sdEl I pos (fun s => σ (e s)) (fun s => τ (e s)) = sdEl I pos σ τ := by
    unfold sdEl
    refine Eq.trans ?_ (sum3_comp e _)
    simp only [comp_exch, comp_shift3, comp_inj, hn, ha]
  have t4 : staticEl I pos (fun s => σ (e s)) (fun s => τ (e s)) = staticEl I pos σ τ := by
    unfold staticEl
    simp only [comp_inj, hJ]
    refine if_congr Iff.rfl ?_ rfl
    have := sum_lt_reindex e (fun a b => if Near (pos a) (pos b) ∧ σ a ≠ .hole ∧ σ b ≠ .hole
      then Jeff I pos σ a b * ((σ a).val * (σ b).val - 1 / 4) else 0) (by
        intro a b
        rw [Jeff_comm, mul_comm (σ a).val]
        exact if_congr ⟨fun h => ⟨near_symm.1 h.1, h.2.2, h.2.1⟩, fun h => ⟨near_symm.1 h.1, h.2.2, h.2.1⟩⟩ rfl rfl)
    simp only [← ite_and, hn] at this
    exact this
  have t5 : flipEl I pos (fun s => σ (e s)) (fun s => τ (e s)) = flipEl I pos σ τ := by
    unfold flipEl
    simp only [comp_exch, comp_inj, hJ]
    have := sum_lt_reindex e (fun a b => if Near (pos a) (pos b) ∧ σ a ≠ .hole ∧ σ b ≠ .hole ∧ σ a ≠ σ b ∧ τ = exch σ a b
      then Jeff I pos σ a b / 2 else 0) (by
        intro a b
        rw [Jeff_comm, exch_comm]
        exact if_congr ⟨fun h => ⟨near_symm.1 h.1, h.2.2.1, h.2.1, h.2.2.2.1.symm, h.2.2.2.2⟩,
          fun h => ⟨near_symm.1 h.1, h.2.2.1, h.2.1, h.2.2.2.1.symm, h.2.2.2.2⟩⟩ rfl rfl)
    simp only [← ite_and, hn] at this
    exact this
  have t6 : repEl I pos (fun s => σ (e s)) (fun s => τ (e s)) = repEl I pos σ τ := by
    unfold repEl
    simp only [comp_inj]
    refine if_congr Iff.rfl ?_ rfl
    have := sum_lt_reindex e (fun a b => if σ a = .hole ∧ σ b = .hole
      then (if Near (pos a) (pos b) then I.VNN else 0) + (if Diagonal (pos a) (pos b) then I.VNNNper else 0) else 0) (by
        intro a b
        rw [if_congr (near_symm (p := pos a) (q := pos b)) rfl rfl, if_congr (diag_symm (p := pos a) (q := pos b)) rfl rfl]
        exact if_congr and_comm rfl rfl)
    simp only [← ite_and, hn, hd] at this
    exact this
  unfold hamEl
  rw [t1, t2, t3, t4, t5, t6]

/-! ### Diagonal -/

theorem exch_ne {σ : Conf n} {a b : Fin n} (h : σ a ≠ σ b) : σ ≠ exch σ a b := by
  intro e
  apply h
  have := congrFun e a
  rwa [exch_left] at this

/-- Hoppings, flips and displacements have no diagonal elements. -/
theorem hamEl_diag (B : BoolInteractions) (hz : B.bz = false) (hV : B.bV = false) (σ : Conf n) : hamEl I pos B σ σ = 0 := by
  have t1 : hopEl I pos σ σ = 0 := by
    refine sum_eq_zero (fun a _ => sum_eq_zero (fun b _ => if_neg ?_))
    rintro ⟨h1, h2, _, h3⟩
    exact exch_ne (by rw [h1]; exact h2.symm) h3
  have t2 : nextEl I pos σ σ = 0 := by
    refine sum_eq_zero (fun a _ => sum_eq_zero (fun b _ => if_neg ?_))
    rintro ⟨h1, h2, _, h3⟩
    exact exch_ne (by rw [h1]; exact h2.symm) h3
  have t3 : flipEl I pos σ σ = 0 := by
    refine sum_eq_zero (fun a _ => sum_eq_zero (fun b _ => if_neg ?_))
    rintro ⟨_, _, _, _, h2, h3⟩
    exact exch_ne h2 h3
  have t4 : sdEl I pos σ σ = 0 := by
    refine sum_eq_zero (fun a _ => sum_eq_zero (fun m _ => sum_eq_zero (fun b _ => ?_)))
    split_ifs with h
    all_goals try rfl
    all_goals
      obtain ⟨h1, h2, h3, h4, h5⟩ := h
      have hb : σ b ≠ .hole := by rw [h3]; exact fun g => h2 (Occ.rev_hole_iff.1 g)
      rename_i g1 g2
      first
        | exact absurd g2 (exch_ne (by rw [h1]; exact hb.symm))
        | skip
    all_goals
      first
        | (exfalso
           have := congrFun g1 a
           unfold shift3 at this
           rw [if_pos rfl] at this
           exact h2 (this ▸ h1))
        | simp
  unfold hamEl
  rw [t1, t2, t3, t4, hz, hV]
  simp

end

end TJ
