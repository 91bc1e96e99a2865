/-
One row of sites: moves of holes to neighbouring sites keep the order of the spins.
-/
import Verif.Props.Ferromagnet
import Verif.Props.Multiplets
import Verif.Lemmas.SumRule
import Verif.Lemmas.Sector
import Verif.Lemmas.HoleMoves
import Mathlib.Data.List.OfFn
import Mathlib.LinearAlgebra.Dimension.Constructions
import Mathlib.LinearAlgebra.FiniteDimensional.Defs

namespace TJ

open Finset

/-! ### Lists -/

/-- Every electron becomes an up spin. -/
def upper (o : Occ) : Occ := if o = .hole then .hole else .up

/-- The spins of a list, from left to right. -/
def spins (l : List Occ) : List Occ := l.filter fun o => decide (o ≠ .hole)

theorem spins_cons_hole (l : List Occ) : spins (.hole :: l) = spins l := by simp [spins]

theorem spins_cons {o : Occ} (h : o ≠ .hole) (l : List Occ) : spins (o :: l) = o :: spins l := by simp [spins, h]

theorem eq_of_spins : ∀ l m : List Occ, l.map upper = m.map upper → spins l = spins m → l = m := by
  intro l
  induction l with
  | nil => intro m h _; cases m with
    | nil => rfl
    | cons => simp at h
  | cons x l ih =>
    intro m h hs
    cases m with
    | nil => simp at h
    | cons y m =>
      rw [List.map_cons, List.map_cons, List.cons.injEq] at h
      by_cases hx : x = .hole
      · have hy : y = .hole := by
          by_contra hy
          have := h.1
          unfold upper at this
          rw [if_pos hx, if_neg hy] at this
          exact absurd this (by decide)
        subst hx hy
        rw [spins_cons_hole, spins_cons_hole] at hs
        rw [ih m h.2 hs]
      · have hy : y ≠ .hole := by
          intro hy
          have := h.1
          unfold upper at this
          rw [if_neg hx, if_pos hy] at this
          exact absurd this (by decide)
        rw [spins_cons hx, spins_cons hy, List.cons.injEq] at hs
        rw [hs.1, ih m h.2 hs.2]

theorem exists_spins : ∀ p w : List Occ, (∀ o ∈ p, o = .hole ∨ o = .up) → (∀ o ∈ w, o ≠ .hole) → w.length = (spins p).length →
    ∃ l, l.map upper = p ∧ spins l = w := by
  intro p
  induction p with
  | nil => intro w _ _ h; exact ⟨[], rfl, (List.eq_nil_of_length_eq_zero h).symm⟩
  | cons x p ih =>
    intro w hp hw h
    rcases hp x (List.mem_cons_self ..) with rfl | rfl
    · rw [spins_cons_hole] at h
      obtain ⟨l, h1, h2⟩ := ih w (fun o ho => hp o (List.mem_cons_of_mem _ ho)) hw h
      exact ⟨.hole :: l, by rw [List.map_cons, h1]; rfl, by rw [spins_cons_hole, h2]⟩
    · rw [spins_cons (by decide)] at h
      cases w with
      | nil => simp at h
      | cons y w =>
        have hy := hw y (List.mem_cons_self ..)
        obtain ⟨l, h1, h2⟩ := ih w (fun o ho => hp o (List.mem_cons_of_mem _ ho)) (fun o ho => hw o (List.mem_cons_of_mem _ ho)) (by simpa using h)
        refine ⟨y :: l, ?_, by rw [spins_cons hy, h2]⟩
        rw [List.map_cons, h1]
        unfold upper
        rw [if_neg hy]

section
variable {n : Nat}

/-- The spins of an occupation, in the order of the sites. -/
def spinWord (σ : Conf n) : List Occ := spins (List.ofFn σ)

theorem ofFn_upOf (σ : Conf n) : List.ofFn (upOf σ) = (List.ofFn σ).map upper := by
  rw [List.map_ofFn]
  rfl

theorem conf_of_word {σ τ : Conf n} (h1 : upOf σ = upOf τ) (h2 : spinWord σ = spinWord τ) : σ = τ := by
  refine List.ofFn_injective (eq_of_spins _ _ ?_ h2)
  rw [← ofFn_upOf, ← ofFn_upOf, h1]

theorem count_list (σ : Conf n) (o : Occ) : (List.ofFn σ).count o = σ.count o := by
  unfold Conf.count
  rw [card_filter]
  induction n with
  | zero => rfl
  | succ n ih =>
    rw [List.ofFn_succ, List.count_cons, ih (fun i => σ i.succ), Fin.sum_univ_succ, Nat.add_comm]
    congr 1
    simp

theorem spins_count (l : List Occ) {o : Occ} (h : o ≠ .hole) : (spins l).count o = l.count o := by
  unfold spins
  rw [List.count_filter]
  simpa using h

theorem spins_length (l : List Occ) : (spins l).length + l.count .hole = l.length := by
  induction l with
  | nil => rfl
  | cons x l ih =>
    by_cases hx : x = .hole
    · subst hx
      rw [spins_cons_hole, List.count_cons_self, List.length_cons]
      omega
    · rw [spins_cons hx, List.count_cons_of_ne hx, List.length_cons, List.length_cons]
      omega

/-- Every distribution of the holes and every order of the spins occur together. -/
theorem exists_word {h b : Nat} {ρ : Conf n} (hρ : ρ.count .hole = h ∧ ρ.count .down = 0) {σ : Conf n}
    (hσ : σ.count .hole = h ∧ σ.count .down = b) : ∃ τ : Conf n, upOf τ = ρ ∧ spinWord τ = spinWord σ ∧ τ.count .hole = h ∧ τ.count .down = b := by
  have hup : ∀ o ∈ List.ofFn ρ, o = .hole ∨ o = .up := by
    intro o ho
    by_contra hcon
    push Not at hcon
    have hd : o = .down := by
      revert hcon
      cases o <;> simp
    subst hd
    have := List.count_pos_iff.2 ho
    rw [count_list, hρ.2] at this
    omega
  obtain ⟨l, h1, h2⟩ := exists_spins (List.ofFn ρ) (spinWord σ) hup
    (by intro o ho; simpa using (List.mem_filter.1 ho).2)
    (by
      have a1 := spins_length (List.ofFn ρ)
      have a2 := spins_length (List.ofFn σ)
      rw [count_list, List.length_ofFn] at a1 a2
      show (spins (List.ofFn σ)).length = _
      omega)
  have hl : l.length = n := by
    have := congrArg List.length h1
    rwa [List.length_map, List.length_ofFn] at this
  subst hl
  have hof : List.ofFn (fun i : Fin l.length => l.get i) = l := List.ofFn_get l
  refine ⟨fun i => l.get i, ?_, ?_, ?_, ?_⟩
  · apply List.ofFn_injective
    rw [ofFn_upOf, hof, h1]
  · unfold spinWord
    rw [hof, h2]
    rfl
  · have a1 := spins_length l
    have a2 := spins_length (List.ofFn σ)
    rw [count_list, List.length_ofFn, hσ.1] at a2
    rw [← count_list, hof]
    rw [h2] at a1
    have : (spinWord σ).length = (spins (List.ofFn σ)).length := rfl
    omega
  · rw [← count_list, hof, ← spins_count l (by decide), h2]
    show (spins (List.ofFn σ)).count .down = b
    rw [spins_count _ (by decide), count_list, hσ.2]

/-- An exchange of a hole with the next site keeps the order of the spins. -/
theorem spinWord_exch {σ : Conf n} {a b : Fin n} (hab : a.1 + 1 = b.1) (h : σ a = .hole ∨ σ b = .hole) : spinWord (exch σ a b) = spinWord σ := by
  have split : ∀ τ : Conf n, List.ofFn τ = (List.ofFn τ).take a.1 ++ τ a :: τ b :: (List.ofFn τ).drop (a.1 + 2) := by
    intro τ
    have l1 : a.1 < (List.ofFn τ).length := by rw [List.length_ofFn]; exact a.2
    have l2 : a.1 + 1 < (List.ofFn τ).length := by rw [List.length_ofFn, hab]; exact b.2
    conv_lhs => rw [← List.take_append_drop a.1 (List.ofFn τ), List.drop_eq_getElem_cons l1, List.drop_eq_getElem_cons l2]
    simp only [List.getElem_ofFn]
    have e : (⟨a.1 + 1, hab ▸ b.2⟩ : Fin n) = b := Fin.ext hab
    rw [← e]
  have same : (List.ofFn (exch σ a b)).take a.1 = (List.ofFn σ).take a.1 ∧ (List.ofFn (exch σ a b)).drop (a.1 + 2) = (List.ofFn σ).drop (a.1 + 2) := by
    constructor
    · refine List.ext_getElem (by simp) fun k k1 k2 => ?_
      simp only [List.getElem_take, List.getElem_ofFn]
      rw [List.length_take] at k1
      refine exch_other _ ?_ ?_ <;> (intro e; have := congrArg Fin.val e; simp only at this; omega)
    · refine List.ext_getElem (by simp) fun k k1 k2 => ?_
      simp only [List.getElem_drop, List.getElem_ofFn]
      refine exch_other _ ?_ ?_ <;> (intro e; have := congrArg Fin.val e; simp only at this; omega)
  unfold spinWord
  rw [split (exch σ a b), split σ, same.1, same.2, exch_left, exch_right]
  unfold spins
  rw [List.filter_append, List.filter_append]
  congr 1
  rcases h with h | h
  · rw [h, List.filter_cons, List.filter_cons, List.filter_cons, List.filter_cons]
    simp
  · rw [h, List.filter_cons, List.filter_cons, List.filter_cons, List.filter_cons]
    simp

end

/-! ### The Hamiltonian of a row -/

section
variable {n : Nat} {pos : Fin n → Pt} {I : Interactions ℝ} {B : BoolInteractions}

/-- The sites are in a row: neighbours are consecutive. -/
def InRow (pos : Fin n → Pt) : Prop := ∀ a b, Near (pos a) (pos b) → a.1 + 1 = b.1 ∨ b.1 + 1 = a.1

/-- Only the hopping to neighbours and the repulsion. -/
def HopRep (B : BoolInteractions) : Prop := B.bz = false ∧ B.bij = false ∧ B.bSD = false ∧ B.btN = false

theorem hop_inRow (hr : InRow pos) (σ τ : Conf n) :
    hopEl I pos σ τ = if spinWord τ = spinWord σ then hopEl I pos (upOf σ) (upOf τ) else 0 := by
  have key : ∀ a b, σ a = .hole → Near (pos a) (pos b) → (τ = exch σ a b ↔ spinWord τ = spinWord σ ∧ upOf τ = exch (upOf σ) a b) := by
    intro a b ha hab
    have hw : spinWord (exch σ a b) = spinWord σ := by
      rcases hr a b hab with e | e
      · exact spinWord_exch e (.inl ha)
      · rw [exch_comm]
        exact spinWord_exch e (.inr ha)
    constructor
    · rintro rfl
      exact ⟨hw, rfl⟩
    · rintro ⟨e1, e2⟩
      exact conf_of_word (e2.trans rfl) (e1.trans hw.symm)
  unfold hopEl
  by_cases hw : spinWord τ = spinWord σ
  · rw [if_pos hw]
    refine sum_congr rfl fun a _ => sum_congr rfl fun b _ => ?_
    refine if_congr ?_ rfl rfl
    rw [upOf_same σ a, ne_eq, ne_eq, upOf_same σ b]
    constructor
    · rintro ⟨h1, h2, h3, h4⟩
      exact ⟨h1, h2, h3, ((key a b h1 h3).1 h4).2⟩
    · rintro ⟨h1, h2, h3, h4⟩
      exact ⟨h1, h2, h3, (key a b h1 h3).2 ⟨hw, h4⟩⟩
  · rw [if_neg hw]
    refine sum_eq_zero fun a _ => sum_eq_zero fun b _ => if_neg ?_
    rintro ⟨h1, h2, h3, h4⟩
    exact hw ((key a b h1 h3).1 h4).1

theorem rep_inRow (σ τ : Conf n) : repEl I pos σ τ = if spinWord τ = spinWord σ then repEl I pos (upOf σ) (upOf τ) else 0 := by
  have he : τ = σ ↔ spinWord τ = spinWord σ ∧ upOf τ = upOf σ :=
    ⟨by rintro rfl; exact ⟨rfl, rfl⟩, fun ⟨e1, e2⟩ => conf_of_word e2 e1⟩
  unfold repEl
  by_cases hw : spinWord τ = spinWord σ
  · rw [if_pos hw]
    by_cases hu : upOf τ = upOf σ
    · rw [if_pos (he.2 ⟨hw, hu⟩), if_pos hu]
      refine sum_congr rfl fun a _ => sum_congr rfl fun b _ => ?_
      exact if_congr (by rw [upOf_same σ a, upOf_same σ b]) rfl rfl
    · rw [if_neg hu, if_neg fun h => hu (he.1 h).2]
  · rw [if_neg hw, if_neg fun h => hw (he.1 h).1]

theorem ham_inRow (hr : InRow pos) (hB : HopRep B) (σ τ : Conf n) :
    hamEl I pos B σ τ = if spinWord τ = spinWord σ then hamEl I pos B (upOf σ) (upOf τ) else 0 := by
  obtain ⟨b1, b2, b3, b4⟩ := hB
  unfold hamEl
  rw [b1, b2, b3, b4, hop_inRow hr, rep_inRow]
  by_cases hw : spinWord τ = spinWord σ <;> simp [hw]

/-- The orders of the spins in a sector. -/
def rowWords (n h b : Nat) : Finset (List Occ) := (sectorConfs n h b).image spinWord

theorem mem_sectorConfs {h b : Nat} {σ : Conf n} : σ ∈ sectorConfs n h b ↔ σ.count .hole = h ∧ σ.count .down = b := by
  unfold sectorConfs
  simp

/-- A sum over the occupations with a given order of the spins. -/
theorem sum_word {h b : Nat} {w : List Occ} (hw : w ∈ rowWords n h b) (g : Conf n → ℝ) :
    (∑ τ ∈ (sectorConfs n h b).filter fun τ => spinWord τ = w, g (upOf τ)) = ∑ ρ ∈ sectorConfs n h 0, g ρ := by
  obtain ⟨σ, hσ, rfl⟩ := mem_image.1 hw
  rw [mem_sectorConfs] at hσ
  refine sum_bij (fun τ _ => upOf τ) ?_ ?_ ?_ (fun _ _ => rfl)
  · intro τ hτ
    rw [mem_filter, mem_sectorConfs] at hτ
    rw [mem_sectorConfs]
    exact ⟨(upOf_count τ).1.trans hτ.1.1, (upOf_count τ).2⟩
  · intro τ hτ υ hυ e
    exact conf_of_word e ((mem_filter.1 hτ).2.trans (mem_filter.1 hυ).2.symm)
  · intro ρ hρ
    rw [mem_sectorConfs] at hρ
    obtain ⟨τ, h1, h2, h3⟩ := exists_word hρ hσ
    exact ⟨τ, mem_filter.2 ⟨mem_sectorConfs.2 h3, h2⟩, h1⟩

/-- The number of orders of the spins. -/
theorem card_words (h b : Nat) : (rowWords n h b).card * (sectorConfs n h 0).card = (sectorConfs n h b).card := by
  rw [card_eq_sum_card_fiberwise (f := spinWord) (s := sectorConfs n h b) (t := rowWords n h b) (fun σ hσ => mem_image_of_mem _ hσ)]
  rw [sum_const_nat (m := (sectorConfs n h 0).card)]
  intro w hw
  have := sum_word hw (fun _ => 1)
  rw [sum_const, sum_const, nsmul_one, nsmul_one] at this
  exact_mod_cast this

/-- The product of the Hamiltonian with a state of the sector, order by order. -/
theorem tjOp_row (hr : InRow pos) (hB : HopRep B) {h b : Nat} {φ : Conf n → ℝ} (hφ : InSector h b φ) {g : Conf n → ℝ} {σ : Conf n}
    (hσ : σ ∈ sectorConfs n h b) (hg : ∀ τ ∈ sectorConfs n h b, spinWord τ = spinWord σ → φ τ = g (upOf τ)) (hg0 : InSector h 0 g) :
    tjOp I pos B φ σ = tjOp I pos B g (upOf σ) := by
  unfold tjOp
  have e1 : ∑ τ, hamEl I pos B σ τ * φ τ = ∑ τ ∈ (sectorConfs n h b).filter fun τ => spinWord τ = spinWord σ, hamEl I pos B (upOf σ) (upOf τ) * g (upOf τ) := by
    symm
    refine sum_subset_zero_on_sdiff (subset_univ _) ?_ ?_
    · intro τ hτ
      rw [mem_sdiff, mem_filter, not_and] at hτ
      by_cases hs : τ ∈ sectorConfs n h b
      · rw [ham_inRow hr hB, if_neg (hτ.2 hs), zero_mul]
      · have : φ τ = 0 := by
          by_contra h0
          exact hs (mem_sectorConfs.2 (hφ τ h0))
        rw [this, mul_zero]
    · intro τ hτ
      rw [mem_filter] at hτ
      rw [ham_inRow hr hB σ τ, if_pos hτ.2, hg τ hτ.1 hτ.2]
  rw [e1, sum_word (mem_image_of_mem _ hσ) (fun ρ => hamEl I pos B (upOf σ) ρ * g ρ)]
  refine sum_subset (subset_univ _) fun ρ _ hρ => ?_
  have : g ρ = 0 := by
    by_contra h0
    exact hρ (mem_sectorConfs.2 (hg0 ρ h0))
  rw [this, mul_zero]

/-- Outside of the sector both sides of the eigenvalue equation are zero. -/
theorem tjOp_outside {h b : Nat} {φ : Conf n → ℝ} (hφ : InSector h b φ) {σ : Conf n} (hσ : σ ∉ sectorConfs n h b) : tjOp I pos B φ σ = 0 := by
  unfold tjOp
  refine sum_eq_zero fun τ _ => ?_
  by_cases h0 : φ τ = 0
  · rw [h0, mul_zero]
  · obtain ⟨h1, h2⟩ := hφ τ h0
    rw [mem_sectorConfs, not_and_or] at hσ
    rcases hσ with hσ | hσ
    · rw [hamEl_sector I pos B .hole (by rw [h1]; exact Ne.symm hσ), zero_mul]
    · rw [hamEl_sector I pos B .down (by rw [h2]; exact Ne.symm hσ), zero_mul]

/-- A polarised state for every order of the spins gives a state of the sector. -/
noncomputable def joinWords (hr : InRow pos) (hB : HopRep B) (h b : Nat) (e : ℝ) :
    (rowWords n h b → sectorEig I pos B h 0 e) →ₗ[ℝ] sectorEig I pos B h b e where
  toFun F := ⟨fun σ => if hσ : σ ∈ sectorConfs n h b then (F ⟨spinWord σ, mem_image_of_mem _ hσ⟩ : Conf n → ℝ) (upOf σ) else 0, by
    have hin : InSector h b fun σ : Conf n => if hσ : σ ∈ sectorConfs n h b then (F ⟨spinWord σ, mem_image_of_mem _ hσ⟩ : Conf n → ℝ) (upOf σ) else 0 := by
      intro σ h0
      by_contra hcon
      exact h0 (dif_neg fun hm => hcon (mem_sectorConfs.1 hm))
    refine ⟨hin, fun σ => ?_⟩
    by_cases hσ : σ ∈ sectorConfs n h b
    · rw [tjOp_row hr hB hin (g := (F ⟨spinWord σ, mem_image_of_mem _ hσ⟩ : Conf n → ℝ)) hσ ?_ (F ⟨spinWord σ, mem_image_of_mem _ hσ⟩).2.1]
      · show _ = e * (if hσ : σ ∈ sectorConfs n h b then _ else 0)
        rw [dif_pos hσ]
        exact (F ⟨spinWord σ, mem_image_of_mem _ hσ⟩).2.2 _
      · intro τ hτ hw
        show (if hσ : τ ∈ sectorConfs n h b then _ else 0) = _
        rw [dif_pos hτ]
        have e' : (⟨spinWord τ, mem_image_of_mem _ hτ⟩ : rowWords n h b) = ⟨spinWord σ, mem_image_of_mem _ hσ⟩ := Subtype.ext hw
        rw [e']
    · rw [tjOp_outside hin hσ]
      show 0 = e * (if hσ : σ ∈ sectorConfs n h b then _ else 0)
      rw [dif_neg hσ, mul_zero]⟩
  map_add' F G := by
    apply Subtype.ext
    funext σ
    show (if hσ : σ ∈ sectorConfs n h b then ((F + G) ⟨spinWord σ, mem_image_of_mem _ hσ⟩ : Conf n → ℝ) (upOf σ) else 0) =
      (if hσ : σ ∈ sectorConfs n h b then (F ⟨spinWord σ, mem_image_of_mem _ hσ⟩ : Conf n → ℝ) (upOf σ) else 0) +
      (if hσ : σ ∈ sectorConfs n h b then (G ⟨spinWord σ, mem_image_of_mem _ hσ⟩ : Conf n → ℝ) (upOf σ) else 0)
    split_ifs
    · rfl
    · rw [add_zero]
  map_smul' x F := by
    apply Subtype.ext
    funext σ
    show (if hσ : σ ∈ sectorConfs n h b then ((x • F) ⟨spinWord σ, mem_image_of_mem _ hσ⟩ : Conf n → ℝ) (upOf σ) else 0) =
      x * (if hσ : σ ∈ sectorConfs n h b then (F ⟨spinWord σ, mem_image_of_mem _ hσ⟩ : Conf n → ℝ) (upOf σ) else 0)
    split_ifs
    · rfl
    · rw [mul_zero]

theorem joinWords_bijective (hr : InRow pos) (hB : HopRep B) (h b : Nat) (e : ℝ) :
    Function.Bijective (joinWords (I := I) hr hB h b e) := by
  constructor
  · rw [← LinearMap.ker_eq_bot, LinearMap.ker_eq_bot']
    intro F hF
    funext w
    apply Subtype.ext
    funext ρ
    show (F w : Conf n → ℝ) ρ = 0
    by_contra h0
    have hρ := (F w).2.1 ρ h0
    obtain ⟨w, hw⟩ := w
    obtain ⟨σ, hσ, rfl⟩ := mem_image.1 hw
    rw [mem_sectorConfs] at hσ
    obtain ⟨τ, h1, h2, h3⟩ := exists_word hρ hσ
    have := congrFun (congrArg Subtype.val hF) τ
    have h4 : τ ∈ sectorConfs n h b := mem_sectorConfs.2 h3
    have this : (if hσ : τ ∈ sectorConfs n h b then (F ⟨spinWord τ, mem_image_of_mem _ hσ⟩ : Conf n → ℝ) (upOf τ) else 0) = 0 := this
    rw [dif_pos h4, h1] at this
    apply h0
    have e' : (⟨spinWord τ, mem_image_of_mem _ h4⟩ : rowWords n h b) = ⟨spinWord σ, hw⟩ := Subtype.ext h2
    rw [e'] at this
    exact this
  · rintro ⟨φ, hφ, heq⟩
    have hex : ∀ (w : rowWords n h b) (ρ : Conf n), ρ ∈ sectorConfs n h 0 → ∃ τ : Conf n, upOf τ = ρ ∧ spinWord τ = w ∧ τ ∈ sectorConfs n h b := by
      rintro ⟨w, hw⟩ ρ hρ
      obtain ⟨σ, hσ, rfl⟩ := mem_image.1 hw
      obtain ⟨τ, h1, h2, h3⟩ := exists_word (mem_sectorConfs.1 hρ) (mem_sectorConfs.1 hσ)
      exact ⟨τ, h1, h2, mem_sectorConfs.2 h3⟩
    choose! fill f1 f2 f3 using hex
    have hval : ∀ (w : rowWords n h b) (τ : Conf n), τ ∈ sectorConfs n h b → spinWord τ = w → fill w (upOf τ) = τ := by
      intro w τ hτ hw
      have hm : upOf τ ∈ sectorConfs n h 0 := mem_sectorConfs.2 ⟨(upOf_count τ).1.trans (mem_sectorConfs.1 hτ).1, (upOf_count τ).2⟩
      exact conf_of_word (f1 w _ hm) ((f2 w _ hm).trans hw.symm)
    have hmem : ∀ w : rowWords n h b, (fun ρ : Conf n => if ρ ∈ sectorConfs n h 0 then φ (fill w ρ) else 0) ∈ sectorEig I pos B h 0 e := by
      intro w
      have hin : InSector h 0 fun ρ : Conf n => if ρ ∈ sectorConfs n h 0 then φ (fill w ρ) else 0 := by
        intro ρ h0
        by_contra hcon
        exact h0 (if_neg fun hm => hcon (mem_sectorConfs.1 hm))
      refine ⟨hin, fun ρ => ?_⟩
      by_cases hρ : ρ ∈ sectorConfs n h 0
      · have := tjOp_row (I := I) hr hB hφ (σ := fill w ρ) (f3 w ρ hρ) (g := fun ρ : Conf n => if ρ ∈ sectorConfs n h 0 then φ (fill w ρ) else 0) (by
          intro τ hτ hw
          have hm : upOf τ ∈ sectorConfs n h 0 := mem_sectorConfs.2 ⟨(upOf_count τ).1.trans (mem_sectorConfs.1 hτ).1, (upOf_count τ).2⟩
          show φ τ = if upOf τ ∈ sectorConfs n h 0 then φ (fill w (upOf τ)) else 0
          rw [if_pos hm, hval w τ hτ (hw.trans (f2 w ρ hρ))]) hin
        rw [f1 w ρ hρ] at this
        rw [← this, heq]
        show _ = e * (if ρ ∈ sectorConfs n h 0 then φ (fill w ρ) else 0)
        rw [if_pos hρ]
      · rw [tjOp_outside hin hρ]
        show 0 = e * (if ρ ∈ sectorConfs n h 0 then φ (fill w ρ) else 0)
        rw [if_neg hρ, mul_zero]
    refine ⟨fun w => ⟨_, hmem w⟩, ?_⟩
    apply Subtype.ext
    funext σ
    show (if hσ : σ ∈ sectorConfs n h b then (if upOf σ ∈ sectorConfs n h 0 then φ (fill ⟨spinWord σ, mem_image_of_mem _ hσ⟩ (upOf σ)) else 0) else 0) = φ σ
    by_cases hσ : σ ∈ sectorConfs n h b
    · have hm : upOf σ ∈ sectorConfs n h 0 := mem_sectorConfs.2 ⟨(upOf_count σ).1.trans (mem_sectorConfs.1 hσ).1, (upOf_count σ).2⟩
      rw [dif_pos hσ, if_pos hm, hval _ σ hσ rfl]
    · rw [dif_neg hσ]
      by_contra h0
      exact hσ (mem_sectorConfs.2 (hφ σ (Ne.symm h0)))

theorem finrank_row (hr : InRow pos) (hB : HopRep B) (h b : Nat) (e : ℝ) : Module.finrank ℝ (sectorEig I pos B h b e) =
    (rowWords n h b).card * Module.finrank ℝ (sectorEig I pos B h 0 e) := by
  rw [← (LinearEquiv.ofBijective _ (joinWords_bijective (I := I) hr hB h b e)).finrank_eq, Module.finrank_pi_fintype]
  simp

end

end TJ
