/-
Property C147: the curves of the spectrum against t/J rise, and the lowest one is concave as a function of J/t.
-/
import Verif.Props.Dependance
import Verif.Props.Couplings
import Verif.Props.RitzValues
import Verif.Props.SumRule

namespace TJ

open Finset Matrix

/-- Exchange couplings of one sign, and no singlet displacement where it is switched on. -/
structure OneSign (I : Interactions ℝ) (ext : Bool) : Prop where
  J : I.J ≠ 0
  par : 0 ≤ I.Jhpar / I.J
  per : 0 ≤ I.Jhper / I.J
  sd : ext = true → I.hSDpar = 0 ∧ I.hSDper = 0

theorem couplings_eq {I I' : Interactions ℝ} {r : ℝ} (h : dependanceCouplings I r = .ok I') : I.J ≠ 0 ∧
    I' = ⟨I.t, |I.t| / r, I.Jhpar * (|I.t| / r) / I.J, I.Jhper * (|I.t| / r) / I.J, I.hSDpar * (|I.t| / r) / I.J,
      I.hSDper * (|I.t| / r) / I.J, I.tNNN, I.tnNNN, I.VNN, I.VNNNper⟩ := by
  unfold dependanceCouplings at h
  dsimp only at h
  split_ifs at h with hJ
  exact ⟨hJ, (Except.ok.inj h).symm⟩

/-- Without the switch the singlet displacements have no influence. -/
theorem build_without_sd (E : Env) (c : Config) (I : Interactions ℝ) (dets : List (List Nat)) (p q : ℝ) (r : List Nat) (v : Bool) :
    buildHamiltonian E c { I with hSDpar := p, hSDper := q } dets (dependanceBools false) r v =
      buildHamiltonian E c I dets (dependanceBools false) r v := rfl

/-- C147. With exchange couplings of one sign no energy falls when t/J rises. -/
theorem C147_rise (E : Env) (c : Config) (nbh nbv nb : Nat) (hc : RectConf c nbh nbv nb) (hf : c.Full)
    (hn : c.nholes + c.nbeta ≤ c.nsites) (I : Interactions ℝ) (ext : Bool) (hI : OneSign I ext) (r1 r2 : ℝ) (h0 : 0 < r1) (h12 : r1 ≤ r2)
    (I1 I2 : Interactions ℝ) (hI1 : dependanceCouplings I r1 = .ok I1) (hI2 : dependanceCouplings I r2 = .ok I2) (r : List Nat) (v : Bool)
    (dets : List (List Nat)) (hb : constructBasis c = .ok dets) (H1 H2 : SpMat ℝ)
    (hH1 : buildHamiltonian E c I1 dets (dependanceBools ext) r v = .ok H1) (hH2 : buildHamiltonian E c I2 dets (dependanceBools ext) r v = .ok H2)
    (e1 : Fin H1.dim → ℝ) (w1 : Fin H1.dim → Fin H1.dim → ℝ) (hw1 : ∀ k, H1.toMatrix *ᵥ w1 k = e1 k • w1 k)
    (ho1 : ∀ i j, w1 i ⬝ᵥ w1 j = if i = j then 1 else 0) (hm1 : Monotone e1)
    (e2 : Fin H2.dim → ℝ) (w2 : Fin H2.dim → Fin H2.dim → ℝ) (hw2 : ∀ k, H2.toMatrix *ᵥ w2 k = e2 k • w2 k)
    (ho2 : ∀ i j, w2 i ⬝ᵥ w2 j = if i = j then 1 else 0) (hm2 : Monotone e2) :
    H1.dim = H2.dim ∧ ∀ k (hk : k < H1.dim) (hk' : k < H2.dim), e1 ⟨k, hk⟩ ≤ e2 ⟨k, hk'⟩ := by
  obtain ⟨hJ, q1⟩ := couplings_eq hI1
  obtain ⟨_, q2⟩ := couplings_eq hI2
  have hs : |I.t| / r2 ≤ |I.t| / r1 := div_le_div_of_nonneg_left (abs_nonneg _) h0 h12
  have hmul : ∀ x : ℝ, 0 ≤ x / I.J → x * (|I.t| / r2) / I.J ≤ x * (|I.t| / r1) / I.J := by
    intro x hx
    have := mul_le_mul_of_nonneg_left hs hx
    calc x * (|I.t| / r2) / I.J = x / I.J * (|I.t| / r2) := by ring
      _ ≤ x / I.J * (|I.t| / r1) := this
      _ = _ := by ring
  cases ext with
  | false =>
    rw [← build_without_sd E c I1 dets 0 0] at hH1
    rw [← build_without_sd E c I2 dets 0 0] at hH2
    have hR : Raised { I1 with hSDpar := 0, hSDper := 0 } { I2 with hSDpar := 0, hSDper := 0 } := by
      subst q1 q2
      exact ⟨⟨rfl, rfl, rfl, rfl, rfl⟩, ⟨hs, hmul _ hI.par, hmul _ hI.per⟩, ⟨le_refl _, le_refl _⟩⟩
    exact C115_monotone E c nbh nbv nb hc hf hn _ _ hR _
      (fun _ => rfl) r v dets hb H1 H2 hH1 hH2 e1 w1 hw1 ho1 hm1 e2 w2 hw2 ho2 hm2
  | true =>
    obtain ⟨p, q⟩ := hI.sd rfl
    have hR : Raised I1 I2 := by
      subst q1 q2
      refine ⟨⟨rfl, rfl, rfl, ?_, ?_⟩, ⟨hs, hmul _ hI.par, hmul _ hI.per⟩, ⟨le_refl _, le_refl _⟩⟩
      · simp [p]
      · simp [q]
    exact C115_monotone E c nbh nbv nb hc hf hn _ _ hR _
      (fun _ => rfl) r v dets hb H1 H2 hH1 hH2 e1 w1 hw1 ho1 hm1 e2 w2 hw2 ho2 hm2

/-- C147. The lowest energy is concave in J/|t|, the reciprocal of the ratio: between two ratios it is not below the straight line. -/
theorem C147_concave (E : Env) (c : Config) (nbh nbv nb : Nat) (hc : RectConf c nbh nbv nb) (hf : c.Full)
    (hn : c.nholes + c.nbeta ≤ c.nsites) (I : Interactions ℝ) (ext : Bool) (r0 r1 r2 x y : ℝ) (hx : 0 ≤ x) (hy : 0 ≤ y)
    (hxy : x + y = 1) (hr : 1 / r0 = x / r1 + y / r2)
    (I0 I1 I2 : Interactions ℝ) (hI0 : dependanceCouplings I r0 = .ok I0) (hI1 : dependanceCouplings I r1 = .ok I1)
    (hI2 : dependanceCouplings I r2 = .ok I2) (r : List Nat) (v : Bool)
    (dets : List (List Nat)) (hb : constructBasis c = .ok dets) (H0 H1 H2 : SpMat ℝ)
    (hH0 : buildHamiltonian E c I0 dets (dependanceBools ext) r v = .ok H0)
    (hH1 : buildHamiltonian E c I1 dets (dependanceBools ext) r v = .ok H1) (hH2 : buildHamiltonian E c I2 dets (dependanceBools ext) r v = .ok H2)
    (m0 m1 m2 : ℝ) (h0 : IsLeast {μ | Module.End.HasEigenvalue (Matrix.toLin' H0.toMatrix) μ} m0)
    (h1 : IsLeast {μ | Module.End.HasEigenvalue (Matrix.toLin' H1.toMatrix) μ} m1)
    (h2 : IsLeast {μ | Module.End.HasEigenvalue (Matrix.toLin' H2.toMatrix) μ} m2) : x * m1 + y * m2 ≤ m0 := by
  obtain ⟨hJ, rfl⟩ := couplings_eq hI0
  obtain ⟨_, rfl⟩ := couplings_eq hI1
  obtain ⟨_, rfl⟩ := couplings_eq hI2
  have hlin : ∀ z : ℝ, z * (|I.t| / r0) / I.J = x * (z * (|I.t| / r1) / I.J) + y * (z * (|I.t| / r2) / I.J) := by
    intro z
    calc z * (|I.t| / r0) / I.J = z * |I.t| / I.J * (1 / r0) := by ring
      _ = z * |I.t| / I.J * (x / r1 + y / r2) := by rw [hr]
      _ = _ := by ring
  have hsame : ∀ z : ℝ, z = x * z + y * z := fun z => by rw [← add_mul, hxy, one_mul]
  have hJ' : |I.t| / r0 = x * (|I.t| / r1) + y * (|I.t| / r2) := by
    calc |I.t| / r0 = |I.t| * (1 / r0) := by ring
      _ = |I.t| * (x / r1 + y / r2) := by rw [hr]
      _ = _ := by ring
  have hI : (⟨I.t, |I.t| / r0, I.Jhpar * (|I.t| / r0) / I.J, I.Jhper * (|I.t| / r0) / I.J, I.hSDpar * (|I.t| / r0) / I.J,
      I.hSDper * (|I.t| / r0) / I.J, I.tNNN, I.tnNNN, I.VNN, I.VNNNper⟩ : Interactions ℝ) =
      lincomb x y ⟨I.t, |I.t| / r1, I.Jhpar * (|I.t| / r1) / I.J, I.Jhper * (|I.t| / r1) / I.J, I.hSDpar * (|I.t| / r1) / I.J,
      I.hSDper * (|I.t| / r1) / I.J, I.tNNN, I.tnNNN, I.VNN, I.VNNNper⟩ ⟨I.t, |I.t| / r2, I.Jhpar * (|I.t| / r2) / I.J,
      I.Jhper * (|I.t| / r2) / I.J, I.hSDpar * (|I.t| / r2) / I.J, I.hSDper * (|I.t| / r2) / I.J, I.tNNN, I.tnNNN, I.VNN, I.VNNNper⟩ := by
    unfold lincomb
    simp only [Interactions.mk.injEq]
    exact ⟨hsame _, hJ', hlin _, hlin _, hlin _, hlin _, hsame _, hsame _, hsame _, hsame _⟩
  rw [hI] at hH0
  have sym : ∀ (I : Interactions ℝ) (H : SpMat ℝ), buildHamiltonian E c I dets (dependanceBools ext) r v = .ok H → H.toMatrix.IsSymm := by
    intro I H h
    ext i j
    exact C32_symmetric E c nbh nbv nb hc hf hn I _ r v dets hb H h j i
  obtain ⟨e1, o1⟩ := realLib_eigh _ H1.toMatrix (sym _ _ hH1)
  obtain ⟨e2, o2⟩ := realLib_eigh _ H2.toMatrix (sym _ _ hH2)
  have low : ∀ (H : SpMat ℝ) (m : ℝ), IsLeast {μ | Module.End.HasEigenvalue (Matrix.toLin' H.toMatrix) μ} m →
      ∀ (l : Fin H.dim → ℝ) (w : Fin H.dim → Fin H.dim → ℝ), (∀ k, H.toMatrix *ᵥ w k = l k • w k) →
        (∀ i j, w i ⬝ᵥ w j = if i = j then 1 else 0) → ∀ k, m ≤ l k := by
    intro H m hm l w hw ho k
    refine hm.2 (Module.End.hasEigenvalue_of_hasEigenvector (x := w k) ⟨?_, ?_⟩)
    · rw [Module.End.mem_eigenspace_iff, Matrix.toLin'_apply, hw]
    · intro h
      have := ho k k
      rw [h, if_pos rfl, zero_dotProduct] at this
      exact zero_ne_one this
  obtain ⟨z, hz, hz0⟩ := h0.1.exists_hasEigenvector
  rw [Module.End.mem_eigenspace_iff, Matrix.toLin'_apply] at hz
  exact C115_concave E c nbh nbv nb hc hf hn _ _ x y hx hy _ r v dets hb H1 H2 H0 hH1 hH2 hH0 _ _ e1 o1 _ _ e2 o2 m1 m2 m0
    (low H1 m1 h1 _ _ e1 o1) (low H2 m2 h2 _ _ e2 o2) z hz0 hz

/-- C147. How much the curves rise together, if holes do not change the exchange: the sum of all energies of the sector grows by
`dim · |t| (1/r1 - 1/r2) · bonds · a b / (n (n - 1))` for `a` up and `b` down spins on `n` sites, in both figures. -/
theorem C147_sum (E : Env) (c : Config) (nbh nbv nb : Nat) (hc : RectConf c nbh nbv nb) (hf : c.Full)
    (hn : c.nholes + c.nbeta ≤ c.nsites) (I : Interactions ℝ) (ext : Bool) (hp : PlainExchange I c.nholes) (r1 r2 : ℝ)
    (I1 I2 : Interactions ℝ) (hI1 : dependanceCouplings I r1 = .ok I1) (hI2 : dependanceCouplings I r2 = .ok I2) (r : List Nat) (v : Bool)
    (dets : List (List Nat)) (hb : constructBasis c = .ok dets) (H1 H2 : SpMat ℝ)
    (hH1 : buildHamiltonian E c I1 dets (dependanceBools ext) r v = .ok H1) (hH2 : buildHamiltonian E c I2 dets (dependanceBools ext) r v = .ok H2)
    (e1 : Fin H1.dim → ℝ) (w1 : Fin H1.dim → Fin H1.dim → ℝ) (hw1 : ∀ k, H1.toMatrix *ᵥ w1 k = e1 k • w1 k)
    (ho1 : ∀ i j, w1 i ⬝ᵥ w1 j = if i = j then 1 else 0)
    (e2 : Fin H2.dim → ℝ) (w2 : Fin H2.dim → Fin H2.dim → ℝ) (hw2 : ∀ k, H2.toMatrix *ᵥ w2 k = e2 k • w2 k)
    (ho2 : ∀ i j, w2 i ⬝ᵥ w2 j = if i = j then 1 else 0) :
    (c.nsites : ℝ) * (c.nsites - 1) * (∑ k, e2 k - ∑ k, e1 k) =
      dets.length * (|I.t| * (1 / r1 - 1 / r2) * rectBonds (nbh * nb) (nbv * nb) * (c.nbeta * ((c.nsites : ℝ) - c.nholes - c.nbeta))) := by
  obtain ⟨hJ, q1⟩ := couplings_eq hI1
  obtain ⟨_, q2⟩ := couplings_eq hI2
  have plain : ∀ (ρ : ℝ) (I' : Interactions ℝ), dependanceCouplings I ρ = .ok I' → PlainExchange I' c.nholes := by
    intro ρ I' h
    obtain ⟨_, rfl⟩ := couplings_eq h
    refine Or.imp id ?_ hp
    rintro ⟨p, q⟩
    constructor
    · show I.Jhpar * (|I.t| / ρ) / I.J = |I.t| / ρ
      rw [p, mul_div_cancel_left₀ _ hJ]
    · show I.Jhper * (|I.t| / ρ) / I.J = |I.t| / ρ
      rw [q, mul_div_cancel_left₀ _ hJ]
  have m1 := C122_mean E hc hf hn I1 _ (fun _ => plain r1 I1 hI1) r v dets hb H1 hH1 e1 w1 hw1 ho1
  have m2 := C122_mean E hc hf hn I2 _ (fun _ => plain r2 I2 hI2) r v dets hb H2 hH2 e2 w2 hw2 ho2
  have d1 : (H1.dim : ℝ) = dets.length := congrArg _ (built_form hc hf hn hb hH1).1
  have d2 : (H2.dim : ℝ) = dets.length := congrArg _ (built_form hc hf hn hb hH2).1
  rw [mul_sub, m1, m2, d1, d2, q1, q2]
  have hz : (dependanceBools ext).bz = true := rfl
  simp only [hz, if_true]
  ring

/-- C147. So the curves do rise: with the exchange independent of the holes, hopping, a bond and both spins present, some energy is strictly
higher at a larger ratio. -/
theorem C147_strict (E : Env) (c : Config) (nbh nbv nb : Nat) (hc : RectConf c nbh nbv nb) (hf : c.Full)
    (hn : c.nholes + c.nbeta < c.nsites) (hβ : 0 < c.nbeta) (h2 : 2 ≤ c.nsites) (I : Interactions ℝ) (ext : Bool)
    (hp : PlainExchange I c.nholes) (ht : I.t ≠ 0) (r1 r2 : ℝ) (h0 : 0 < r1) (h12 : r1 < r2)
    (I1 I2 : Interactions ℝ) (hI1 : dependanceCouplings I r1 = .ok I1) (hI2 : dependanceCouplings I r2 = .ok I2) (r : List Nat) (v : Bool)
    (dets : List (List Nat)) (hb : constructBasis c = .ok dets) (H1 H2 : SpMat ℝ)
    (hH1 : buildHamiltonian E c I1 dets (dependanceBools ext) r v = .ok H1) (hH2 : buildHamiltonian E c I2 dets (dependanceBools ext) r v = .ok H2)
    (e1 : Fin H1.dim → ℝ) (w1 : Fin H1.dim → Fin H1.dim → ℝ) (hw1 : ∀ k, H1.toMatrix *ᵥ w1 k = e1 k • w1 k)
    (ho1 : ∀ i j, w1 i ⬝ᵥ w1 j = if i = j then 1 else 0)
    (e2 : Fin H2.dim → ℝ) (w2 : Fin H2.dim → Fin H2.dim → ℝ) (hw2 : ∀ k, H2.toMatrix *ᵥ w2 k = e2 k • w2 k)
    (ho2 : ∀ i j, w2 i ⬝ᵥ w2 j = if i = j then 1 else 0) : ∃ k hk hk', e1 ⟨k, hk⟩ < e2 ⟨k, hk'⟩ := by
  have hs := C147_sum E c nbh nbv nb hc hf hn.le I ext hp r1 r2 I1 I2 hI1 hI2 r v dets hb H1 H2 hH1 hH2 e1 w1 hw1 ho1 e2 w2 hw2 ho2
  have d1 := (built_form hc hf hn.le hb hH1).1
  have d2 := (built_form hc hf hn.le hb hH2).1
  by_contra hcon
  push Not at hcon
  have hdd : H2.dim = H1.dim := d2.trans d1.symm
  have hle : ∑ k, e2 k ≤ ∑ k, e1 k := by
    have : ∑ k, e2 k = ∑ k : Fin H1.dim, e2 (Fin.cast hdd.symm k) :=
      (Fintype.sum_equiv (finCongr hdd) _ _ (fun k => rfl))
    rw [this]
    exact Finset.sum_le_sum fun k _ => hcon k.1 k.2 _
  have hn' : (2 : ℝ) ≤ c.nsites := by exact_mod_cast h2
  have hpos : 0 < (dets.length : ℝ) * (|I.t| * (1 / r1 - 1 / r2) * rectBonds (nbh * nb) (nbv * nb) *
      (c.nbeta * ((c.nsites : ℝ) - c.nholes - c.nbeta))) := by
    have x1 : 0 < dets.length := by
      rw [C02_dimension c dets hb, C02_dimension_value, if_pos hn.le]
      exact Nat.mul_pos (Nat.choose_pos (by omega)) (Nat.choose_pos (by omega))
    have x2 : 0 < rectBonds (nbh * nb) (nbv * nb) := by
      have hns := hc.spec.1
      have hW : 0 < nbh * nb := Nat.mul_pos hc.hh hc.hb
      have hH : 0 < nbv * nb := Nat.mul_pos hc.hv hc.hb
      unfold rectBonds
      rw [hns] at h2
      by_cases h : nbh * nb = 1
      · rw [h] at h2 ⊢
        omega
      · have := Nat.mul_pos hH (show 0 < nbh * nb - 1 by omega)
        omega
    have x3 : 0 < 1 / r1 - 1 / r2 := sub_pos.2 (one_div_lt_one_div_of_lt h0 h12)
    have x4 : (0 : ℝ) < (c.nsites : ℝ) - c.nholes - c.nbeta := by
      have : ((c.nholes + c.nbeta : ℕ) : ℝ) < c.nsites := by exact_mod_cast hn
      push_cast at this
      linarith
    have x5 : 0 < |I.t| := abs_pos.2 ht
    have x6 : (0 : ℝ) < c.nbeta := by exact_mod_cast hβ
    have x7 : (0 : ℝ) < rectBonds (nbh * nb) (nbv * nb) := by exact_mod_cast x2
    have x8 : (0 : ℝ) < dets.length := by exact_mod_cast x1
    positivity
  rw [← hs] at hpos
  have hneg : (c.nsites : ℝ) * (c.nsites - 1) * (∑ k, e2 k - ∑ k, e1 k) ≤ 0 :=
    mul_nonpos_of_nonneg_of_nonpos (mul_nonneg (by linarith) (by linarith)) (by linarith)
  linarith

theorem ratio_mono (n : Nat) (hn : 2 ≤ n) {i j : Nat} (h : i ≤ j) : ratio n i ≤ ratio n j := by
  have h1 : (0 : ℝ) < (n : ℝ) - 1 := by
    have : (2 : ℝ) ≤ n := by exact_mod_cast hn
    linarith
  refine monotone_nat_of_le_succ (f := fun i => ratio n i) (fun i => ?_) h
  have := (C101_ratios n hn).2.2.1 i
  have h2 : (0 : ℝ) ≤ 97 / 10 / (n - 1 : ℝ) := by positivity
  show ratio n i ≤ ratio n (i + 1)
  linarith

/-- C147. No point of curve k lies below the exact energy k of a smaller ratio, up to the rounding of the drawn value. -/
theorem C147_points (E : Env) (L : Nat → Bool → LinAlg ℝ) (he : ∀ i ext, (L i ext).ExactEigh)
    (hq : ∀ i ext, (L i ext).ExactQr) (swap : List ℝ → Bool) (D : Data ℝ) (nbh nbv nb : Nat) (hc : RectConf D.config nbh nbv nb)
    (hf : D.config.Full) (hn : D.config.nholes + D.config.nbeta ≤ D.config.nsites) (n m : Nat) (h2 : 2 ≤ n) (c c' : List (Curve ℝ))
    (h : dependanceSweep E L swap D n m = .ok (c, c')) (ext : Bool) (hI : OneSign D.interactions ext) (i j : Nat) (hij : i ≤ j) (hj : j < m)
    (I : Interactions ℝ) (hIi : dependanceCouplings D.interactions (ratio n i) = .ok I) (dets : List (List Nat))
    (hb : constructBasis D.config = .ok dets) (H : SpMat ℝ) (hH : buildHamiltonian E D.config I dets (dependanceBools ext) = .ok H)
    (e : Fin H.dim → ℝ) (w : Fin H.dim → Fin H.dim → ℝ) (hw : ∀ k, H.toMatrix *ᵥ w k = e k • w k)
    (ho : ∀ i j, w i ⬝ᵥ w j = if i = j then 1 else 0) (hm : Monotone e) :
    ∃ I' r, dependanceCouplings D.interactions (ratio n j) = .ok I' ∧ performInitial E (L j ext) swap (dependanceData D I' ext) = .ok r ∧
      (1 < D.nbStates ∨ 2 ≤ r.eig.trace.length →
        ∀ k row q, k < D.nbStates → (if ext then c' else c)[k]? = some row → row[j]? = some q →
          ∃ hk : k < H.dim, e ⟨k, hk⟩ - 1 / 2000000 ≤ q.1) := by
  obtain ⟨_, _, hpts⟩ := C101_sweep E L swap D n m c c' h ext
  obtain ⟨I', r, g1, g2, g3⟩ := hpts j hj
  refine ⟨I', r, g1, g2, fun hst k row q hk hrow hq' => ?_⟩
  obtain ⟨q', e1, lam, s, e2, _, e3⟩ := g3 k row hk hrow
  obtain rfl := Option.some.inj (hq'.symm.trans e1)
  obtain ⟨p1, p2, ⟨guess, p3, _⟩, _⟩ := performInitial_ok g2
  obtain rfl := Except.ok.inj (hb.symm.trans p1)
  have hdim := C02_dimension _ _ p1
  have hsym : r.ham.toMatrix.IsSymm := by
    ext i j
    exact C32_symmetric E D.config nbh nbv nb hc hf hn I' _ [] true _ hb r.ham p2 j i
  obtain ⟨mu, x, x1, x2, x3⟩ := exists_sorted _ hsym
  have hlen := List.getElem?_eq_some_iff.1 e2
  obtain ⟨hl, hlam⟩ := hlen
  obtain ⟨hd, hle⟩ := C99_sorted (L j ext) (he j ext) (hq j ext) r.ham.toMatrix hsym _ guess _ _ _ r.eig p3 (by
    refine hst.imp (fun hst => ?_) Or.inr
    rw [(built_form hc hf hn hb p2).1, hdim]
    exact hst) mu x x1 x2 (fun _ _ hab => x3 hab) k hl
  obtain ⟨g4, g5⟩ := C147_rise E D.config nbh nbv nb hc hf hn D.interactions ext hI (ratio n i) (ratio n j) ((C101_ratios n h2).2.2.2 i)
    (ratio_mono n h2 hij) I I' hIi g1 [] true _ hb H r.ham hH p2 e w hw ho hm mu x x1 x2 x3
  refine ⟨g4 ▸ hd, ?_⟩
  have h4 := round6_near lam
  have h5 := g5 k (g4 ▸ hd) hd
  rw [abs_le] at h4
  rw [e3]
  show _ ≤ round6 lam
  rw [hlam] at hle
  linarith

/-- A 2 x 2 lattice with one hole and all couplings different from zero: at every two ratios both Hamiltonians exist, their ordered energies
exist, and none falls. -/
example (r1 r2 : ℝ) (h0 : 0 < r1) (h12 : r1 ≤ r2) : ∃ (I1 I2 : Interactions ℝ) (dets : List (List Nat)) (H1 H2 : SpMat ℝ)
    (e1 : Fin H1.dim → ℝ) (e2 : Fin H2.dim → ℝ), dependanceCouplings ⟨1, 2, 3, 5, 7, 11, 13, 17, 19, 23⟩ r1 = .ok I1 ∧
    dependanceCouplings ⟨1, 2, 3, 5, 7, 11, 13, 17, 19, 23⟩ r2 = .ok I2 ∧
    buildHamiltonian exEnv (rectConf 2 2 1 1 1) I1 dets (dependanceBools false) = .ok H1 ∧
    buildHamiltonian exEnv (rectConf 2 2 1 1 1) I2 dets (dependanceBools false) = .ok H2 ∧
    H1.dim = 12 ∧ Monotone e1 ∧ Monotone e2 ∧ ∀ k hk hk', e1 ⟨k, hk⟩ ≤ e2 ⟨k, hk'⟩ := by
  have hc := rectConf_ok 2 2 1 1 1 (by decide) (by decide) (by decide)
  have hf : (rectConf 2 2 1 1 1).Full := by unfold Config.Full; decide +kernel
  have hI : ∀ r : ℝ, ∃ I', dependanceCouplings ⟨1, 2, 3, 5, 7, 11, 13, 17, 19, 23⟩ r = .ok I' := by
    intro r
    unfold dependanceCouplings
    dsimp only
    rw [if_neg (by norm_num)]
    exact ⟨_, rfl⟩
  obtain ⟨I1, hI1⟩ := hI r1
  obtain ⟨I2, hI2⟩ := hI r2
  obtain ⟨dets, H1, hb, g1, _, d1, _⟩ := C30_no_failure exEnv _ 2 2 1 hc hf (by decide) I1 (dependanceBools false) [] true
  obtain ⟨dets', H2, hb', g2, _⟩ := C30_no_failure exEnv _ 2 2 1 hc hf (by decide) I2 (dependanceBools false) [] true
  obtain rfl := Except.ok.inj (hb.symm.trans hb')
  obtain ⟨e1, w1, a1, a2, a3⟩ := exists_sorted _ (built_form hc hf (by decide) hb g1).2.1
  obtain ⟨e2, w2, b1, b2, b3⟩ := exists_sorted _ (built_form hc hf (by decide) hb g2).2.1
  refine ⟨I1, I2, dets, H1, H2, e1, e2, hI1, hI2, g1, g2, ?_, a3, b3, (C147_rise exEnv _ _ _ _ hc hf (by decide) _ false
    ⟨by norm_num, by norm_num, by norm_num, by simp⟩ r1 r2 h0 h12 I1 I2 hI1 hI2 [] true dets hb H1 H2 g1 g2 e1 w1 a1 a2 a3
    e2 w2 b1 b2 b3).2⟩
  have : computeDimension (rectConf 2 2 1 1 1).nsites (rectConf 2 2 1 1 1).nalpha (rectConf 2 2 1 1 1).nbeta = 12 := by decide +kernel
  rw [this] at d1
  exact_mod_cast d1

/-- The same lattice with an exchange independent of the holes and all other couplings different from zero: in both figures some energy is
strictly higher at the larger ratio. -/
example (ext : Bool) (r1 r2 : ℝ) (h0 : 0 < r1) (h12 : r1 < r2) : ∃ (I1 I2 : Interactions ℝ) (dets : List (List Nat)) (H1 H2 : SpMat ℝ)
    (e1 : Fin H1.dim → ℝ) (e2 : Fin H2.dim → ℝ), dependanceCouplings ⟨1, 2, 2, 2, 7, 11, 13, 17, 19, 23⟩ r1 = .ok I1 ∧
    dependanceCouplings ⟨1, 2, 2, 2, 7, 11, 13, 17, 19, 23⟩ r2 = .ok I2 ∧
    buildHamiltonian exEnv (rectConf 2 2 1 1 1) I1 dets (dependanceBools ext) = .ok H1 ∧
    buildHamiltonian exEnv (rectConf 2 2 1 1 1) I2 dets (dependanceBools ext) = .ok H2 ∧
    Monotone e1 ∧ Monotone e2 ∧ ∃ k hk hk', e1 ⟨k, hk⟩ < e2 ⟨k, hk'⟩ := by
  have hc := rectConf_ok 2 2 1 1 1 (by decide) (by decide) (by decide)
  have hf : (rectConf 2 2 1 1 1).Full := by unfold Config.Full; decide +kernel
  have hI : ∀ r : ℝ, ∃ I', dependanceCouplings ⟨1, 2, 2, 2, 7, 11, 13, 17, 19, 23⟩ r = .ok I' := by
    intro r
    unfold dependanceCouplings
    dsimp only
    rw [if_neg (by norm_num)]
    exact ⟨_, rfl⟩
  obtain ⟨I1, hI1⟩ := hI r1
  obtain ⟨I2, hI2⟩ := hI r2
  obtain ⟨dets, H1, hb, g1, _⟩ := C30_no_failure exEnv _ 2 2 1 hc hf (by decide) I1 (dependanceBools ext) [] true
  obtain ⟨dets', H2, hb', g2, _⟩ := C30_no_failure exEnv _ 2 2 1 hc hf (by decide) I2 (dependanceBools ext) [] true
  obtain rfl := Except.ok.inj (hb.symm.trans hb')
  obtain ⟨e1, w1, a1, a2, a3⟩ := exists_sorted _ (built_form hc hf (by decide) hb g1).2.1
  obtain ⟨e2, w2, b1, b2, b3⟩ := exists_sorted _ (built_form hc hf (by decide) hb g2).2.1
  exact ⟨I1, I2, dets, H1, H2, e1, e2, hI1, hI2, g1, g2, a3, b3, C147_strict exEnv _ _ _ _ hc hf (by decide) (by decide) (by decide) _ ext
    (Or.inr ⟨rfl, rfl⟩) one_ne_zero r1 r2 h0 h12 I1 I2 hI1 hI2 [] true dets hb H1 H2 g1 g2 e1 w1 a1 a2 e2 w2 b1 b2⟩

end TJ
