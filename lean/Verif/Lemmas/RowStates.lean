/-
The states of several holes on a row without down spins, as functions of the occupations.
-/
import Verif.Lemmas.Slater

namespace TJ

open Finset Matrix

section
variable {n h : Nat}

/-- The sites of the holes. -/
def holeSites (σ : Conf n) : Finset (Fin n) := univ.filter fun s => σ s = .hole

theorem card_holeSites (σ : Conf n) : (holeSites σ).card = σ.count .hole := rfl

theorem mem_holeSites {σ : Conf n} {s : Fin n} : s ∈ holeSites σ ↔ σ s = .hole := by simp [holeSites]

/-- The occupation with holes at the given sites and up spins elsewhere. -/
def withHoles (X : Finset (Fin n)) : Conf n := fun s => if s ∈ X then .hole else .up

theorem holeSites_withHoles (X : Finset (Fin n)) : holeSites (withHoles X) = X := by
  ext s
  rw [mem_holeSites]
  unfold withHoles
  by_cases hs : s ∈ X <;> simp [hs]

theorem count_withHoles (X : Finset (Fin n)) : (withHoles X).count .hole = X.card ∧ (withHoles X).count .down = 0 := by
  refine ⟨by rw [← card_holeSites, holeSites_withHoles], ?_⟩
  unfold Conf.count
  rw [card_eq_zero, filter_eq_empty_iff]
  intro s _
  unfold withHoles
  by_cases hs : s ∈ X <;> simp [hs]

/-- The sites of the holes in increasing order. -/
def sortedHoles (σ : Conf n) (hσ : σ.count .hole = h) : Fin h ↪o Fin n := (holeSites σ).orderEmbOfFin ((card_holeSites σ).trans hσ)

theorem sortedHoles_hole (σ : Conf n) (hσ : σ.count .hole = h) (k : Fin h) : σ (sortedHoles σ hσ k) = .hole :=
  mem_holeSites.1 ((holeSites σ).orderEmbOfFin_mem _ k)

theorem sortedHoles_lt (σ : Conf n) (hσ : σ.count .hole = h) {i j : Fin h} (hij : i < j) : (sortedHoles σ hσ i).1 < (sortedHoles σ hσ j).1 :=
  (sortedHoles σ hσ).strictMono hij

theorem sortedHoles_surj (σ : Conf n) (hσ : σ.count .hole = h) {b : Fin n} (hb : σ b = .hole) : ∃ l, sortedHoles σ hσ l = b := by
  have : b ∈ Set.range ((holeSites σ).orderEmbOfFin ((card_holeSites σ).trans hσ)) := by
    rw [Finset.range_orderEmbOfFin]
    exact mem_holeSites.2 hb
  exact this

theorem sortedHoles_unique (σ : Conf n) (hσ : σ.count .hole = h) {f : Fin h → Fin n} (hf : ∀ l, σ (f l) = .hole) (hm : StrictMono f) :
    f = sortedHoles σ hσ := Finset.orderEmbOfFin_unique _ (fun l => mem_holeSites.2 (hf l)) hm

theorem sum_holes (σ : Conf n) (hσ : σ.count .hole = h) (f : Fin n → ℝ) : ∑ a with σ a = .hole, f a = ∑ k, f (sortedHoles σ hσ k) := by
  show ∑ a ∈ holeSites σ, f a = _
  conv_lhs => rw [← Finset.map_orderEmbOfFin_univ (holeSites σ) ((card_holeSites σ).trans hσ)]
  rw [sum_map]
  rfl

/-- The determinant of waves as a function of the occupations. -/
noncomputable def slaterState (u : Fin n → Fin n → ℝ) (s : Fin h → Fin n) (σ : Conf n) : ℝ :=
  if hσ : σ.count .hole = h ∧ σ.count .down = 0 then slater u s (sortedHoles σ hσ.1) else 0

theorem slaterState_sector (u : Fin n → Fin n → ℝ) (s : Fin h → Fin n) : InSector h 0 (slaterState u s) := by
  intro σ h0
  by_contra hcon
  exact h0 (dif_neg hcon)

theorem slaterState_at (u : Fin n → Fin n → ℝ) (s : Fin h → Fin n) (X : Finset (Fin n)) (hX : X.card = h) :
    slaterState u s (withHoles X) = slater u s (X.orderEmbOfFin hX) := by
  unfold slaterState
  rw [dif_pos ⟨(count_withHoles X).1.trans hX, (count_withHoles X).2⟩]
  unfold sortedHoles
  simp only [holeSites_withHoles]

/-- Moving one hole to the next site keeps the order of the holes. -/
theorem holes_moved {σ : Conf n} (hσ : σ.count .hole = h) (k : Fin h) {b : Fin n}
    (hab : (sortedHoles σ hσ k).1 + 1 = b.1 ∨ b.1 + 1 = (sortedHoles σ hσ k).1) (hb : σ b ≠ .hole)
    (hτ : (exch σ (sortedHoles σ hσ k) b).count .hole = h) :
    Function.update (sortedHoles σ hσ) k b = sortedHoles (exch σ (sortedHoles σ hσ k) b) hτ := by
  have hx := sortedHoles_hole σ hσ
  have hne : ∀ l, sortedHoles σ hσ l ≠ b := fun l e => hb (e ▸ hx l)
  refine sortedHoles_unique _ hτ (fun l => ?_) ?_
  · by_cases e : l = k
    · subst e
      rw [Function.update_self, exch_right, hx]
    · rw [Function.update_of_ne e, exch_other _ (fun g => e ((sortedHoles σ hσ).injective g)) (hne l), hx]
  · intro i j hij
    have hlt : ∀ {i j}, i < j → _ := fun {i j : Fin h} g => sortedHoles_lt σ hσ (i := i) (j := j) g
    by_cases ei : i = k
    · have ej : j ≠ k := fun e => by omega
      subst ei
      rw [Function.update_self, Function.update_of_ne ej, Fin.lt_def]
      have hl := hlt hij
      have hn' : (sortedHoles σ hσ j).1 ≠ b.1 := fun e => hne j (Fin.ext e)
      omega
    · by_cases ej : j = k
      · subst ej
        rw [Function.update_self, Function.update_of_ne ei, Fin.lt_def]
        have hl := hlt hij
        have hn' : (sortedHoles σ hσ i).1 ≠ b.1 := fun e => hne i (Fin.ext e)
        omega
      · rw [Function.update_of_ne ei, Function.update_of_ne ej]
        exact hlt hij

theorem tjOp_slater {pos : Fin n → Pt} (hpos : ∀ a b, Near (pos a) (pos b) ↔ a.1 + 1 = b.1 ∨ b.1 + 1 = a.1) (I : Interactions ℝ) (B : BoolInteractions)
    (hB : B.bz = false ∧ B.bij = false ∧ B.bSD = false ∧ B.btN = false ∧ B.bV = false) (hbt : B.bt = true)
    (u : Fin n → Fin n → ℝ) (ε : Fin n → ℝ) (hu : ∀ p x, ∑ y : Fin n, pathEl x.1 y.1 * u p y = ε p * u p x) (s : Fin h → Fin n) (σ : Conf n) :
    tjOp I pos B (slaterState u s) σ = (I.t * ∑ i, ε (s i)) * slaterState u s σ := by
  by_cases hσ : σ ∈ sectorConfs n h 0
  swap
  · rw [tjOp_outside (slaterState_sector u s) hσ]
    have : slaterState u s σ = 0 := dif_neg fun h => hσ (mem_sectorConfs.2 h)
    rw [this, mul_zero]
  rw [mem_sectorConfs] at hσ
  obtain ⟨b1, b2, b3, b4, b5⟩ := hB
  have hh : ∀ τ, hamEl I pos B σ τ = hopEl I pos σ τ := by
    intro τ
    unfold hamEl
    simp [b1, b2, b3, b4, b5, hbt]
  unfold tjOp
  simp only [hh]
  unfold hopEl
  simp only [sum_mul]
  rw [sum_comm]
  have e1 : ∀ a, (∑ τ, ∑ b, (if σ a = .hole ∧ σ b ≠ .hole ∧ Near (pos a) (pos b) ∧ τ = exch σ a b then I.t else 0) * slaterState u s τ) =
      if σ a = .hole then ∑ b, (if σ b ≠ .hole ∧ Near (pos a) (pos b) then I.t * slaterState u s (exch σ a b) else 0) else 0 := by
    intro a
    rw [sum_comm]
    by_cases ha : σ a = .hole
    · rw [if_pos ha]
      refine sum_congr rfl fun b _ => ?_
      by_cases hb : σ b ≠ .hole ∧ Near (pos a) (pos b)
      · rw [if_pos hb, sum_eq_single (exch σ a b)]
        · rw [if_pos ⟨ha, hb.1, hb.2, rfl⟩]
        · intro τ _ hτ
          rw [if_neg fun h => hτ h.2.2.2, zero_mul]
        · intro h; exact absurd (mem_univ _) h
      · rw [if_neg hb]
        refine sum_eq_zero fun τ _ => ?_
        rw [if_neg fun h => hb ⟨h.2.1, h.2.2.1⟩, zero_mul]
    · rw [if_neg ha]
      refine sum_eq_zero fun b _ => sum_eq_zero fun τ _ => ?_
      rw [if_neg fun h => ha h.1, zero_mul]
  rw [sum_congr rfl fun a _ => e1 a, ← sum_filter]
  rw [sum_holes σ hσ.1]
  have e3 : slaterState u s σ = slater u s (sortedHoles σ hσ.1) := dif_pos hσ
  rw [e3, mul_assoc, ← slater_move (fun x y : Fin n => pathEl x.1 y.1) u ε hu s, mul_sum]
  refine sum_congr rfl fun k _ => ?_
  rw [mul_sum]
  refine sum_congr rfl fun b _ => ?_
  unfold pathEl
  by_cases hab : (sortedHoles σ hσ.1 k).1 + 1 = b.1 ∨ b.1 + 1 = (sortedHoles σ hσ.1 k).1
  · rw [if_pos hab, one_mul]
    by_cases hb : σ b = .hole
    · rw [if_neg fun h => h.1 hb]
      obtain ⟨l, hl⟩ := sortedHoles_surj σ hσ.1 hb
      have hlk : l ≠ k := by
        rintro rfl
        rw [hl] at hab
        omega
      rw [slater_same u s _ hlk, mul_zero]
      rw [Function.update_of_ne hlk, Function.update_self, hl]
    · rw [if_pos ⟨hb, (hpos _ _).2 hab⟩]
      have hτ : ∀ o, (exch σ (sortedHoles σ hσ.1 k) b).count o = σ.count o := fun o => by rw [exch_comp, count_comp]
      have e4 : slaterState u s (exch σ (sortedHoles σ hσ.1 k) b) = slater u s _ := dif_pos ⟨(hτ _).trans hσ.1, (hτ _).trans hσ.2⟩
      rw [e4, holes_moved hσ.1 k hab hb ((hτ _).trans hσ.1)]
  · rw [if_neg hab, zero_mul, mul_zero, if_neg fun h => hab ((hpos _ _).1 h.2)]

/-- The waves of a row as functions of the sites. -/
noncomputable def rowWave (n : Nat) (p x : Fin n) : ℝ := wave n p x

theorem rowWave_eigen (p x : Fin n) : ∑ y : Fin n, pathEl x.1 y.1 * rowWave n p y = 2 * waveCos n p * rowWave n p x := by
  have := wave_eigen n p x x.2
  rw [← Fin.sum_univ_eq_sum_range (fun y => pathEl x.1 y * wave n p y)] at this
  exact this

theorem rowWave_orth (p q : Fin n) : ∑ y, rowWave n p y * rowWave n q y = if p = q then ∑ y, rowWave n p y * rowWave n p y else 0 := by
  by_cases e : p = q
  · subst e
    rw [if_pos rfl]
  · rw [if_neg e]
    have := wave_orth n p.2 q.2 fun g => e (Fin.ext g)
    rw [← Fin.sum_univ_eq_sum_range (fun y => wave n p y * wave n q y)] at this
    exact this

theorem rowWave_norm (p : Fin n) : ∑ y, rowWave n p y * rowWave n p y ≠ 0 := by
  have := wave_norm n p.2
  rw [← Fin.sum_univ_eq_sum_range (fun y => wave n p y * wave n p y)] at this
  exact ne_of_gt this

end

/-- A full set of independent states with known energies gives the multiplicities of the matrix. -/
theorem finrank_of_states {c : Config} {dets : List (List Nat)} {E : Env} {nbh nbv nb : Nat} (hc : RectConf c nbh nbv nb) (hf : c.Full)
    (hn : c.nholes + c.nbeta ≤ c.nsites) {I : Interactions ℝ} {B : BoolInteractions} {r : List Nat} {vb : Bool}
    (hb : constructBasis c = .ok dets) {H : SpMat ℝ} (hH : buildHamiltonian E c I dets B r vb = .ok H)
    {ι : Type} [Fintype ι] [DecidableEq ι] (hι : Fintype.card ι = dets.length) (Φ : ι → Conf c.nsites → ℝ) (l : ι → ℝ)
    (hΦ : ∀ j, InSector c.nholes c.nbeta (Φ j))
    (hop : ∀ j σ, tjOp I (fun s : Fin c.nsites => gridPos (nbh * nb) s) B (Φ j) σ = l j * Φ j σ)
    (hind : ∀ g : ι → ℝ, (∀ σ, ∑ j, g j * Φ j σ = 0) → ∀ j, g j = 0) (μ : ℝ) [DecidablePred fun j => l j = μ] :
    Module.finrank ℝ (Module.End.eigenspace (Matrix.toLin' H.toMatrix) μ) = (univ.filter fun j => l j = μ).card := by
  obtain ⟨H', h1, hd, _, _⟩ := buildHamiltonian_spec I (hc.tj E) hf hn hb B r vb
  obtain rfl := Except.ok.inj (hH.symm.trans h1)
  have he := C31_matrix_elements E c nbh nbv nb hc hf hn I B r vb dets hb H hH
  have hinj := stateMap_injective (K := ℝ) hb hn hd
  have hmul := fun x => state_mulVec hb hn hd he x
  let w : ι → Fin H.dim → ℝ := fun j k => Φ j (conf c (dets[k.1]'(lt_of_lt_of_eq k.2 hd)))
  have hw : ∀ j, stateMap hb hn hd (w j) = Φ j := by
    intro j
    refine amp_ext hb hn ?_ ?_
    · intro k hk
      rw [getD_ofFn _ (by omega)]
    · intro σ hσ
      by_contra k
      exact hσ (hΦ j σ k)
  have hli : LinearIndependent ℝ w := by
    rw [Fintype.linearIndependent_iff]
    intro g hg
    refine hind g fun σ => ?_
    have := congrArg (stateMap hb hn hd) hg
    rw [map_sum, map_zero] at this
    have := congrFun this σ
    rw [Finset.sum_apply] at this
    rw [← Pi.zero_apply (M := fun _ => ℝ) σ, ← this]
    refine sum_congr rfl fun j _ => ?_
    rw [map_smul, hw]
    rfl
  have hcard : Fintype.card ι = Module.finrank ℝ (Fin H.dim → ℝ) := by rw [Module.finrank_fin_fun, hι, hd]
  have hne : Nonempty ι := by
    have := constructBasis_eq c
    rw [hb] at this
    rw [← Fintype.card_pos_iff, hι, Except.ok.inj this, length_basisList]
    exact Nat.mul_pos (Nat.choose_pos (by omega)) (Nat.choose_pos (by omega))
  let b := basisOfLinearIndependentOfCardEqFinrank hli hcard
  refine finrank_eigenspace_basis b _ l (fun j => ?_) μ
  have hbj : b j = w j := by rw [coe_basisOfLinearIndependentOfCardEqFinrank]
  rw [hbj, Matrix.toLin'_apply]
  apply hinj
  rw [map_smul, hw]
  show state c dets (H.toMatrix *ᵥ w j) = _
  rw [hmul]
  funext σ
  have : tjOp I (fun s : Fin c.nsites => gridPos (nbh * nb) s) B (stateMap hb hn hd (w j)) σ = l j * Φ j σ := by rw [hw, hop]
  exact this

end TJ
