/-
C125: the energies of holes on a row, in closed form.
-/
import Verif.Props.MovingHole
import Verif.Lemmas.RowStates
import Mathlib.Data.Finset.Powerset
import Mathlib.Order.Interval.Finset.Nat

namespace TJ

open Finset Matrix

/-! ### Sums of cosines -/

/-- The cosine of the wave number `k` of a row of `n` sites. -/
noncomputable def rowCos (n k : Nat) : ℝ := Real.cos (Real.pi * k / (n + 1))

theorem rowCos_anti {n j k : Nat} (hk : k ≤ n + 1) (h : j ≤ k) : rowCos n k ≤ rowCos n j := by
  unfold rowCos
  have hn : (0 : ℝ) < n + 1 := by positivity
  have hkj : (j : ℝ) ≤ k := by exact_mod_cast h
  have hk' : (k : ℝ) ≤ n + 1 := by exact_mod_cast hk
  refine Real.cos_le_cos_of_nonneg_of_le_pi ?_ ?_ ?_
  · have := Real.pi_pos
    positivity
  · rw [div_le_iff₀ hn]
    exact mul_le_mul_of_nonneg_left hk' Real.pi_pos.le
  · exact div_le_div_of_nonneg_right (mul_le_mul_of_nonneg_left hkj Real.pi_pos.le) hn.le

theorem rowCos_mirror {n k : Nat} (hk : k ≤ n + 1) : rowCos n (n + 1 - k) = -rowCos n k := by
  unfold rowCos
  rw [Nat.cast_sub hk, ← Real.cos_pi_sub]
  congr 1
  push_cast
  have hn : (n : ℝ) + 1 ≠ 0 := by positivity
  field_simp

theorem increasing_ge {h : Nat} {f : Fin h → Nat} (hf : StrictMono f) (h1 : ∀ i, 1 ≤ f i) : ∀ i : Fin h, i.1 + 1 ≤ f i := by
  rintro ⟨i, hi⟩
  induction i with
  | zero => exact h1 _
  | succ i ih =>
    have := ih (by omega)
    have h2 : f ⟨i, by omega⟩ < f ⟨i + 1, hi⟩ := hf (by simp)
    simp only at this ⊢
    omega

theorem rowCos_sum_le {n h : Nat} {S : Finset Nat} (hS : S ∈ powersetCard h (Icc 1 n)) : ∑ k ∈ S, rowCos n k ≤ ∑ k ∈ Icc 1 h, rowCos n k := by
  rw [mem_powersetCard] at hS
  have hr : ∀ i, S.orderEmbOfFin hS.2 i ∈ Icc 1 n := fun i => hS.1 (S.orderEmbOfFin_mem hS.2 i)
  have e1 : ∑ k ∈ S, rowCos n k = ∑ i, rowCos n (S.orderEmbOfFin hS.2 i) := by
    conv_lhs => rw [← Finset.map_orderEmbOfFin_univ S hS.2]
    rw [sum_map]
    rfl
  have e2 : ∑ k ∈ Icc 1 h, rowCos n k = ∑ i : Fin h, rowCos n (i.1 + 1) := by
    have := Finset.sum_Ico_add' (rowCos n) 0 h 1
    rw [Fin.sum_univ_eq_sum_range (fun i => rowCos n (i + 1)), Finset.range_eq_Ico, this]
    rfl
  rw [e1, e2]
  refine sum_le_sum fun i _ => rowCos_anti ?_ ?_
  · have := mem_Icc.1 (hr i)
    omega
  · exact increasing_ge (S.orderEmbOfFin hS.2).strictMono (fun i => (mem_Icc.1 (hr i)).1) i

/-- The wave numbers counted from the other end. -/
def mirrorNumbers (n : Nat) (S : Finset Nat) : Finset Nat := S.image fun k => n + 1 - k

theorem mirrorNumbers_spec {n h : Nat} {S : Finset Nat} (hS : S ∈ powersetCard h (Icc 1 n)) :
    mirrorNumbers n S ∈ powersetCard h (Icc 1 n) ∧ ∑ k ∈ mirrorNumbers n S, rowCos n k = -∑ k ∈ S, rowCos n k := by
  rw [mem_powersetCard] at hS
  have hr : ∀ k ∈ S, 1 ≤ k ∧ k ≤ n := fun k hk => mem_Icc.1 (hS.1 hk)
  have hinj : Set.InjOn (fun k => n + 1 - k) (S : Set Nat) := by
    intro j hj k hk e
    have := hr j hj
    have := hr k hk
    simp only at e
    omega
  refine ⟨mem_powersetCard.2 ⟨fun m hm => ?_, ?_⟩, ?_⟩
  · obtain ⟨k, hk, rfl⟩ := mem_image.1 hm
    have := hr k hk
    rw [mem_Icc]
    omega
  · unfold mirrorNumbers
    rw [card_image_of_injOn hinj, hS.2]
  · unfold mirrorNumbers
    rw [sum_image hinj, ← sum_neg_distrib]
    refine sum_congr rfl fun k hk => rowCos_mirror ?_
    have := hr k hk
    omega

theorem rowCos_abs {n h : Nat} {S : Finset Nat} (hS : S ∈ powersetCard h (Icc 1 n)) : |∑ k ∈ S, rowCos n k| ≤ ∑ k ∈ Icc 1 h, rowCos n k := by
  rw [abs_le]
  refine ⟨?_, rowCos_sum_le hS⟩
  obtain ⟨h1, h2⟩ := mirrorNumbers_spec hS
  have := rowCos_sum_le h1
  linarith

/-- The sum of the first cosines. -/
theorem rowCos_sum (n h : Nat) : ∑ k ∈ Icc 1 h, rowCos n k =
    (Real.sin ((2 * h + 1) * Real.pi / (2 * (n + 1))) / Real.sin (Real.pi / (2 * (n + 1))) - 1) / 2 := by
  have hn : (0 : ℝ) < n + 1 := by positivity
  have hs : 0 < Real.sin (Real.pi / (2 * (n + 1))) := by
    refine Real.sin_pos_of_pos_of_lt_pi (by have := Real.pi_pos; positivity) ?_
    rw [div_lt_iff₀ (by positivity)]
    have : (0 : ℝ) ≤ n := by positivity
    nlinarith [Real.pi_pos]
  have key : ∀ m : Nat, 2 * Real.sin (Real.pi / (2 * (n + 1))) * ∑ k ∈ Icc 1 m, rowCos n k =
      Real.sin ((2 * m + 1) * Real.pi / (2 * (n + 1))) - Real.sin (Real.pi / (2 * (n + 1))) := by
    intro m
    induction m with
    | zero => simp
    | succ m ih =>
      rw [Finset.sum_Icc_succ_top (by omega), mul_add, ih]
      unfold rowCos
      have a1 : (2 * ((m + 1 : Nat) : ℝ) + 1) * Real.pi / (2 * (n + 1)) = Real.pi * ((m + 1 : Nat) : ℝ) / (n + 1) + Real.pi / (2 * (n + 1)) := by
        field_simp
      have a2 : (2 * (m : ℝ) + 1) * Real.pi / (2 * (n + 1)) = Real.pi * ((m + 1 : Nat) : ℝ) / (n + 1) - Real.pi / (2 * (n + 1)) := by
        push_cast
        field_simp
        ring
      rw [a1, a2, Real.sin_add, Real.sin_sub]
      ring
  have := key h
  rw [eq_div_iff two_ne_zero, eq_sub_iff_add_eq, eq_div_iff hs.ne']
  linarith

/-! ### The spectrum -/

theorem grid_path {W H n : Nat} (hn : n = W * H) (h : W = 1 ∨ H = 1) (a b : Fin n) :
    Near (gridPos W a) (gridPos W b) ↔ a.1 + 1 = b.1 ∨ b.1 + 1 = a.1 := by
  refine ⟨fun g => grid_inRow hn h a b g, fun g => ?_⟩
  have ha := a.2
  have hb := b.2
  unfold Near gridPos
  rcases h with rfl | rfl
  · simp only [Nat.mod_one, Nat.div_one]
    omega
  · rw [Nat.mul_one] at hn
    subst hn
    rw [Nat.mod_eq_of_lt ha, Nat.mod_eq_of_lt hb, Nat.div_eq_of_lt ha, Nat.div_eq_of_lt hb]
    omega

theorem card_numbers (n h : Nat) (t μ : ℝ) :
    (univ.filter fun S : {S : Finset (Fin n) // S.card = h} => t * ∑ i, 2 * waveCos n (S.1.orderEmbOfFin S.2 i) = μ).card =
      ((powersetCard h (Icc 1 n)).filter fun S => ∑ k ∈ S, 2 * t * rowCos n k = μ).card := by
  have hsum : ∀ S : {S : Finset (Fin n) // S.card = h}, t * ∑ i, 2 * waveCos n (S.1.orderEmbOfFin S.2 i) =
      ∑ k ∈ S.1.image (fun p : Fin n => p.1 + 1), 2 * t * rowCos n k := by
    rintro ⟨S, hS⟩
    show t * ∑ i, 2 * waveCos n (S.orderEmbOfFin hS i) = ∑ k ∈ S.image (fun p : Fin n => p.1 + 1), 2 * t * rowCos n k
    rw [sum_image (fun p _ q _ e => Fin.ext (by simpa using e))]
    conv_rhs => rw [← Finset.map_orderEmbOfFin_univ S hS]
    rw [sum_map, mul_sum]
    refine sum_congr rfl fun i _ => ?_
    unfold waveCos rowCos
    show _ = 2 * t * Real.cos (Real.pi * (((S.orderEmbOfFin hS i).1 + 1 : Nat) : ℝ) / (n + 1))
    push_cast
    ring
  refine card_bij (fun S _ => S.1.image fun p : Fin n => p.1 + 1) ?_ ?_ ?_
  · rintro ⟨S, hS⟩ hm
    rw [mem_filter] at hm ⊢
    refine ⟨mem_powersetCard.2 ⟨fun k hk => ?_, ?_⟩, (hsum _).symm.trans hm.2⟩
    · obtain ⟨p, _, rfl⟩ := mem_image.1 hk
      have := p.2
      rw [mem_Icc]
      omega
    · rw [card_image_of_injective _ (fun p q e => Fin.ext (by simpa using e)), hS]
  · rintro ⟨S, hS⟩ _ ⟨T, hT⟩ _ e
    exact Subtype.ext (image_injective (fun p q e => Fin.ext (by simpa using e)) e)
  · intro X hX
    rw [mem_filter, mem_powersetCard] at hX
    obtain ⟨⟨x1, x2⟩, x3⟩ := hX
    have hi : (univ.filter fun p : Fin n => p.1 + 1 ∈ X).image (fun p : Fin n => p.1 + 1) = X := by
      ext k
      rw [mem_image]
      constructor
      · rintro ⟨p, hp, rfl⟩
        exact (mem_filter.1 hp).2
      · intro hk
        have := mem_Icc.1 (x1 hk)
        refine ⟨⟨k - 1, by omega⟩, ?_, ?_⟩
        · rw [mem_filter]
          refine ⟨mem_univ _, ?_⟩
          show k - 1 + 1 ∈ X
          rwa [Nat.sub_add_cancel this.1]
        · show k - 1 + 1 = k
          omega
    have hcard : (univ.filter fun p : Fin n => p.1 + 1 ∈ X).card = h := by
      rw [← card_image_of_injective _ (fun p q e => Fin.ext (by simpa using e) : Function.Injective fun p : Fin n => p.1 + 1), hi, x2]
    refine ⟨⟨_, hcard⟩, ?_, hi⟩
    rw [mem_filter]
    refine ⟨mem_univ _, ?_⟩
    rw [hsum]
    simp only [hi]
    exact x3

theorem row_polarised {E : Env} {c : Config} {nbh nbv nb : Nat} (hc : RectConf c nbh nbv nb) (hf : c.Full) (hn : c.nholes + c.nbeta ≤ c.nsites)
    (h0 : c.nbeta = 0) (hrow : nbh * nb = 1 ∨ nbv * nb = 1) {I : Interactions ℝ} {B : BoolInteractions} (hbt : B.bt = true)
    (hB : B.bz = false ∧ B.bij = false ∧ B.bSD = false ∧ B.btN = false ∧ B.bV = false) {r : List Nat} {v : Bool}
    {dets : List (List Nat)} (hb : constructBasis c = .ok dets) {H : SpMat ℝ} (hH : buildHamiltonian E c I dets B r v = .ok H) (μ : ℝ) :
    Module.finrank ℝ (Module.End.eigenspace (Matrix.toLin' H.toMatrix) μ) =
      ((powersetCard c.nholes (Icc 1 c.nsites)).filter fun S => ∑ k ∈ S, 2 * I.t * rowCos c.nsites k = μ).card := by
  classical
  rw [← card_numbers]
  have hlen : dets.length = c.nsites.choose c.nholes := by
    have := constructBasis_eq c
    rw [hb] at this
    rw [Except.ok.inj this, length_basisList, h0, Nat.choose_zero_right, Nat.mul_one]
  refine finrank_of_states hc hf hn hb hH (ι := {S : Finset (Fin c.nsites) // S.card = c.nholes}) ?_
    (fun S => slaterState (rowWave c.nsites) (S.1.orderEmbOfFin S.2)) (fun S => I.t * ∑ i, 2 * waveCos c.nsites (S.1.orderEmbOfFin S.2 i)) ?_ ?_ ?_ μ
  · rw [hlen, Fintype.card_subtype]
    have : (univ.filter fun S : Finset (Fin c.nsites) => S.card = c.nholes) = powersetCard c.nholes univ := by
      ext S
      simp [mem_powersetCard]
    rw [this, card_powersetCard, card_univ, Fintype.card_fin]
  · intro S
    rw [h0]
    exact slaterState_sector _ _
  · intro S σ
    exact tjOp_slater (fun a b => grid_path hc.spec.1 hrow a b) I B hB hbt (rowWave c.nsites) (fun p => 2 * waveCos c.nsites p) rowWave_eigen
      (S.1.orderEmbOfFin S.2) σ
  · intro g hg
    refine slater_independent (rowWave c.nsites) _ rowWave_norm rowWave_orth g fun X hX => ?_
    rw [← hg (withHoles X)]
    exact sum_congr rfl fun S _ => by rw [slaterState_at _ _ X hX]

/-- C125. On a row of `n` sites with `h` holes and `b` down spins, the hopping alone: the multiplicity of every energy is `(n - h choose b)` times
the number of ways to write the energy as a sum of `2 t cos (π k / (n + 1))` over `h` different wave numbers `k` from `1` to `n`. -/
theorem C125_spectrum (E : Env) (c : Config) (nbh nbv nb : Nat) (hc : RectConf c nbh nbv nb) (hf : c.Full) (hn : c.nholes + c.nbeta ≤ c.nsites)
    (hrow : nbh * nb = 1 ∨ nbv * nb = 1) (I : Interactions ℝ) (B : BoolInteractions) (hbt : B.bt = true)
    (hB : B.bz = false ∧ B.bij = false ∧ B.bSD = false ∧ B.btN = false ∧ B.bV = false) (r : List Nat) (v : Bool)
    (dets : List (List Nat)) (hb : constructBasis c = .ok dets) (H : SpMat ℝ) (hH : buildHamiltonian E c I dets B r v = .ok H) (μ : ℝ) :
    Module.finrank ℝ (Module.End.eigenspace (Matrix.toLin' H.toMatrix) μ) = (c.nsites - c.nholes).choose c.nbeta *
      ((powersetCard c.nholes (Icc 1 c.nsites)).filter fun S : Finset Nat => ∑ k ∈ S, 2 * I.t * Real.cos (Real.pi * k / (c.nsites + 1)) = μ).card := by
  have hn0 : c.nholes + 0 ≤ c.nsites := by omega
  obtain ⟨d, G, a1, a2, _⟩ := C30_no_failure E { c with nbeta := 0 } nbh nbv nb (hc.with_nbeta 0) hf hn0 I B r v
  rw [C124_row E c nbh nbv nb hc hf hn hrow I B ⟨hB.1, hB.2.1, hB.2.2.1, hB.2.2.2.1⟩ r v dets hb H hH d a1 G a2 μ]
  congr 1
  exact row_polarised (c := { c with nbeta := 0 }) (hc.with_nbeta 0) hf hn0 rfl hrow hbt hB a1 a2 μ

/-- C125. The energies of the row are exactly the sums over `h` different wave numbers. -/
theorem C125_energies (E : Env) (c : Config) (nbh nbv nb : Nat) (hc : RectConf c nbh nbv nb) (hf : c.Full) (hn : c.nholes + c.nbeta ≤ c.nsites)
    (hrow : nbh * nb = 1 ∨ nbv * nb = 1) (I : Interactions ℝ) (B : BoolInteractions) (hbt : B.bt = true)
    (hB : B.bz = false ∧ B.bij = false ∧ B.bSD = false ∧ B.btN = false ∧ B.bV = false) (r : List Nat) (v : Bool)
    (dets : List (List Nat)) (hb : constructBasis c = .ok dets) (H : SpMat ℝ) (hH : buildHamiltonian E c I dets B r v = .ok H) (μ : ℝ) :
    Module.End.HasEigenvalue (Matrix.toLin' H.toMatrix) μ ↔
      ∃ S : Finset Nat, S ⊆ Icc 1 c.nsites ∧ S.card = c.nholes ∧ ∑ k ∈ S, 2 * I.t * Real.cos (Real.pi * k / (c.nsites + 1)) = μ := by
  have hpos : (c.nsites - c.nholes).choose c.nbeta ≠ 0 := (Nat.choose_pos (by omega)).ne'
  rw [Module.End.hasEigenvalue_iff, ne_eq, ← Submodule.finrank_eq_zero (R := ℝ), C125_spectrum E c nbh nbv nb hc hf hn hrow I B hbt hB r v dets hb H hH μ,
    Nat.mul_eq_zero, not_or, card_eq_zero, ← ne_eq (filter _ _), ← nonempty_iff_ne_empty]
  constructor
  · rintro ⟨_, S, hS⟩
    rw [mem_filter, mem_powersetCard] at hS
    exact ⟨S, hS.1.1, hS.1.2, hS.2⟩
  · rintro ⟨S, h1, h2, h3⟩
    exact ⟨hpos, S, mem_filter.2 ⟨mem_powersetCard.2 ⟨h1, h2⟩, h3⟩⟩

/-- C125. The lowest energy of the row. -/
theorem C125_lowest (E : Env) (c : Config) (nbh nbv nb : Nat) (hc : RectConf c nbh nbv nb) (hf : c.Full) (hn : c.nholes + c.nbeta ≤ c.nsites)
    (hrow : nbh * nb = 1 ∨ nbv * nb = 1) (I : Interactions ℝ) (B : BoolInteractions) (hbt : B.bt = true)
    (hB : B.bz = false ∧ B.bij = false ∧ B.bSD = false ∧ B.btN = false ∧ B.bV = false) (r : List Nat) (v : Bool)
    (dets : List (List Nat)) (hb : constructBasis c = .ok dets) (H : SpMat ℝ) (hH : buildHamiltonian E c I dets B r v = .ok H) :
    IsLeast {μ | Module.End.HasEigenvalue (Matrix.toLin' H.toMatrix) μ}
      (|I.t| * (1 - Real.sin ((2 * c.nholes + 1) * Real.pi / (2 * (c.nsites + 1))) / Real.sin (Real.pi / (2 * (c.nsites + 1))))) := by
  have hen := C125_energies E c nbh nbv nb hc hf hn hrow I B hbt hB r v dets hb H hH
  have hval : |I.t| * (1 - Real.sin ((2 * c.nholes + 1) * Real.pi / (2 * (c.nsites + 1))) / Real.sin (Real.pi / (2 * (c.nsites + 1)))) =
      -(2 * |I.t|) * ∑ k ∈ Icc 1 c.nholes, rowCos c.nsites k := by
    rw [rowCos_sum]
    ring
  have hfac : ∀ S : Finset Nat, ∑ k ∈ S, 2 * I.t * Real.cos (Real.pi * k / (c.nsites + 1)) = 2 * I.t * ∑ k ∈ S, rowCos c.nsites k := fun S => by
    rw [mul_sum]
    rfl
  have hfirst : Icc 1 c.nholes ∈ powersetCard c.nholes (Icc 1 c.nsites) :=
    mem_powersetCard.2 ⟨Icc_subset_Icc_right (by omega), by rw [Nat.card_Icc]; omega⟩
  rw [hval]
  constructor
  · show Module.End.HasEigenvalue _ _
    rw [hen]
    rcases le_or_gt 0 I.t with ht | ht
    · obtain ⟨m1, m2⟩ := mirrorNumbers_spec hfirst
      rw [mem_powersetCard] at m1
      refine ⟨_, m1.1, m1.2, ?_⟩
      rw [hfac, m2, abs_of_nonneg ht]
      ring
    · rw [mem_powersetCard] at hfirst
      refine ⟨_, hfirst.1, hfirst.2, ?_⟩
      rw [hfac, abs_of_neg ht]
      ring
  · intro μ hμ
    obtain ⟨S, h1, h2, h3⟩ := (hen μ).1 hμ
    rw [hfac] at h3
    rw [← h3]
    have habs := rowCos_abs (mem_powersetCard.2 ⟨h1, h2⟩)
    have h4 : -(|I.t| * |∑ k ∈ S, rowCos c.nsites k|) ≤ I.t * ∑ k ∈ S, rowCos c.nsites k := by
      rw [← abs_mul]
      exact neg_abs_le _
    have h5 := mul_le_mul_of_nonneg_left habs (abs_nonneg I.t)
    nlinarith

/-! ### Cases that meet the hypotheses -/

/-- A row of three sites with one hole and one down spin: the energies are `-√2 t`, `0` and `√2 t`, each twice. -/
example (I : Interactions ℝ) (ht : I.t = 1) : ∃ dets H, constructBasis (rectConf 3 1 1 1 1) = .ok dets ∧
    buildHamiltonian exEnv (rectConf 3 1 1 1 1) I dets ⟨true, false, false, false, false, false⟩ = .ok H ∧ H.dim = 6 ∧
    (∀ μ, Module.End.HasEigenvalue (Matrix.toLin' H.toMatrix) μ ↔ μ = Real.sqrt 2 ∨ μ = 0 ∨ μ = -Real.sqrt 2) ∧
    Module.finrank ℝ (Module.End.eigenspace (Matrix.toLin' H.toMatrix) 0) = 2 := by
  have hc : RectConf (rectConf 3 1 1 1 1) 3 1 1 := rectConf_ok _ _ _ _ _ (by decide) (by decide) (by decide)
  have hf : Config.Full (rectConf 3 1 1 1 1) := by unfold Config.Full; decide +kernel
  have hn : (rectConf 3 1 1 1 1).nholes + (rectConf 3 1 1 1 1).nbeta ≤ (rectConf 3 1 1 1 1).nsites := by decide +kernel
  obtain ⟨d, H, a1, a2, a4, _⟩ := C30_no_failure exEnv _ 3 1 1 hc hf hn I ⟨true, false, false, false, false, false⟩ [] false
  have hns : (rectConf 3 1 1 1 1).nsites = 3 := by decide +kernel
  have hnh : (rectConf 3 1 1 1 1).nholes = 1 := rfl
  have c1 : Real.cos (Real.pi * (1 : Nat) / ((3 : Nat) + 1)) = Real.sqrt 2 / 2 := by
    rw [show Real.pi * (1 : Nat) / (((3 : Nat) : ℝ) + 1) = Real.pi / 4 by push_cast; ring, Real.cos_pi_div_four]
  have c2 : Real.cos (Real.pi * (2 : Nat) / ((3 : Nat) + 1)) = 0 := by
    rw [show Real.pi * (2 : Nat) / (((3 : Nat) : ℝ) + 1) = Real.pi / 2 by push_cast; ring, Real.cos_pi_div_two]
  have c3 : Real.cos (Real.pi * (3 : Nat) / ((3 : Nat) + 1)) = -(Real.sqrt 2 / 2) := by
    rw [show Real.pi * (3 : Nat) / (((3 : Nat) : ℝ) + 1) = Real.pi - Real.pi / 4 by push_cast; ring, Real.cos_pi_sub, Real.cos_pi_div_four]
  refine ⟨d, H, a1, a2, ?_, fun μ => ?_, ?_⟩
  · rw [a4, C02_dimension _ _ a1]
    decide +kernel
  · rw [C125_energies exEnv _ 3 1 1 hc hf hn (.inr rfl) I _ rfl ⟨rfl, rfl, rfl, rfl, rfl⟩ [] false d a1 H a2 μ, hns, hnh]
    constructor
    · rintro ⟨S, h1, h2, h3⟩
      obtain ⟨k, rfl⟩ := card_eq_one.1 h2
      have hk := mem_Icc.1 (h1 (mem_singleton_self k))
      rw [sum_singleton, ht] at h3
      obtain rfl | rfl | rfl : k = 1 ∨ k = 2 ∨ k = 3 := by omega
      · rw [c1] at h3; left; linarith
      · rw [c2] at h3; right; left; linarith
      · rw [c3] at h3; right; right; linarith
    · rintro (rfl | rfl | rfl)
      · exact ⟨{1}, by decide, rfl, by rw [sum_singleton, c1, ht]; ring⟩
      · exact ⟨{2}, by decide, rfl, by rw [sum_singleton, c2, ht]; ring⟩
      · exact ⟨{3}, by decide, rfl, by rw [sum_singleton, c3, ht]; ring⟩
  · rw [C125_spectrum exEnv _ 3 1 1 hc hf hn (.inr rfl) I _ rfl ⟨rfl, rfl, rfl, rfl, rfl⟩ [] false d a1 H a2 0, hns, hnh]
    have h2 : (3 - 1 : Nat).choose (rectConf 3 1 1 1 1).nbeta = 2 := rfl
    rw [h2]
    have hs : Real.sqrt 2 ≠ 0 := by positivity
    have : ((powersetCard 1 (Icc 1 3)).filter fun S : Finset Nat => ∑ k ∈ S, 2 * I.t * Real.cos (Real.pi * k / ((3 : Nat) + 1)) = 0) = {{2}} := by
      ext S
      rw [mem_filter, mem_powersetCard, mem_singleton]
      constructor
      · rintro ⟨⟨h1, h2⟩, h3⟩
        obtain ⟨k, rfl⟩ := card_eq_one.1 h2
        have hk := mem_Icc.1 (h1 (mem_singleton_self k))
        rw [sum_singleton, ht] at h3
        obtain rfl | rfl | rfl : k = 1 ∨ k = 2 ∨ k = 3 := by omega
        · rw [c1] at h3; exact absurd (by linarith) hs
        · rfl
        · rw [c3] at h3; exact absurd (by linarith) hs
      · rintro rfl
        exact ⟨⟨by decide, rfl⟩, by rw [sum_singleton, c2]; ring⟩
    rw [this]
    rfl

end TJ
