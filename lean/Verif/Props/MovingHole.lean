/-
A moving hole aligns the spins: on rectangles with at least two rows and columns the hopping alone makes the lowest state of every sector
unique and ferromagnetic (C124).
-/
import Verif.Lemmas.HoleMoves
import Verif.Lemmas.Row
import Verif.Props.FerroUnique

namespace TJ

open Finset Matrix

section
variable {n : Nat} {I : Interactions ℝ} {pos : Fin n → Pt} {B : BoolInteractions}

/-- Off-diagonal elements are not positive, those of a move of a hole are negative. -/
theorem low_hop (hbt : B.bt = true) (ht : I.t < 0) (hJ : B.bij = true → I.J ≤ 0 ∧ I.Jhpar ≤ 0 ∧ I.Jhper ≤ 0)
    (hS : B.bSD = true → I.hSDpar = 0 ∧ I.hSDper = 0) (hN : B.btN = true → I.tNNN ≤ 0 ∧ I.tnNNN ≤ 0)
    {σ τ : Conf n} (hne : τ ≠ σ) : hamEl I pos B σ τ ≤ 0 ∧ (HopStep pos σ τ → hamEl I pos B σ τ < 0) := by
  have e1 : (if B.bt then hopEl I pos σ τ else 0) = hopEl I pos σ τ := if_pos hbt
  have e2 : (if B.bz then staticEl I pos σ τ else 0) = 0 := by
    unfold staticEl
    rw [if_neg hne, ite_self]
  have e3 : (if B.bij then flipEl I pos σ τ else 0) ≤ 0 := by
    split_ifs with h
    · refine sum2_nonpos fun a b => ?_
      split_ifs
      · unfold Jeff
        obtain ⟨j1, j2, j3⟩ := hJ h
        split_ifs <;> linarith
      · exact le_refl _
    · exact le_refl _
  have e4 : (if B.bSD then sdEl I pos σ τ else 0) = 0 := by
    split_ifs with h
    · exact sdEl_zero (hS h) σ τ
    · rfl
  have e5 : (if B.btN then nextEl I pos σ τ else 0) ≤ 0 := by
    split_ifs with h
    · exact next_nonpos (hN h) σ τ
    · exact le_refl _
  have e6 : (if B.bV then repEl I pos σ τ else 0) = 0 := by
    unfold repEl
    rw [if_neg hne, ite_self]
  have e7 := hop_nonpos (I := I) (pos := pos) ht.le σ τ
  refine ⟨by unfold hamEl; rw [e1, e2, e4, e6]; linarith, ?_⟩
  rintro ⟨a, b, h1, h2, h3, rfl⟩
  have e8 : hopEl I pos σ (exch σ a b) < 0 := by
    refine sum2_neg (fun x y => ?_) a b ?_
    · split_ifs
      · exact ht.le
      · exact le_refl _
    · rw [if_pos ⟨h1, h2, h3, rfl⟩]
      exact ht
  unfold hamEl
  rw [e1, e2, e4, e6]
  linarith

end

section
variable {E : Env} {c : Config} {nbh nbv nb : Nat} {I : Interactions ℝ} {B : BoolInteractions} {r : List Nat} {vb' : Bool}
  {dets : List (List Nat)} {H : SpMat ℝ}

/-- The sign rule of moving holes. -/
theorem hole_signs (hc : RectConf c nbh nbv nb) (hf : c.Full) (hn : c.nholes + c.nbeta ≤ c.nsites) (hh : 1 ≤ c.nholes)
    (hW : 2 ≤ nbh * nb) (hV : 2 ≤ nbv * nb) (hbt : B.bt = true) (ht : I.t ≠ 0) (hJ : B.bij = true → I.J ≤ 0 ∧ I.Jhpar ≤ 0 ∧ I.Jhper ≤ 0)
    (hS : B.bSD = true → I.hSDpar = 0 ∧ I.hSDper = 0) (hN : B.btN = true → I.tNNN ≤ 0 ∧ I.tnNNN ≤ 0)
    (hb : constructBasis c = .ok dets) (hH : buildHamiltonian E c I dets B r vb' = .ok H) : SignRule c (nbh * nb) I.t dets H := by
  obtain ⟨l1, l2, l3, l4, l5, l6, l7⟩ := lowT_same I
  have low := fun (σ τ : Conf c.nsites) (hne : τ ≠ σ) => low_hop (I := lowT I) (pos := fun t : Fin c.nsites => gridPos (nbh * nb) t) (B := B) hbt
    (lowT_t I ht) (by rw [l1, l2, l3]; exact hJ) (by rw [l4, l5]; exact hS) (by rw [l6, l7]; exact hN) hne
  refine signs_steps hc hf hn hb hH (HopStep fun t : Fin c.nsites => gridPos (nbh * nb) t) ?_ ?_ _ (ferroSign_sq _ _) ?_ ?_
  · rintro σ τ ⟨a, b, h1, h2, _, e⟩
    exact ⟨a, b, fun h => h2 (h ▸ h1), e⟩
  · intro σ τ hσ _ hcnt
    refine hops_all (grid_tiled hW hV hc.spec.1) (fun a b => grid_joined (nbh * nb) (nbv * nb) hc.spec.1 a b) σ τ hcnt ?_
    by_contra hcon
    push Not at hcon
    have : σ.count .hole = 0 := by
      unfold Conf.count
      rw [card_eq_zero, filter_eq_empty_iff]
      exact fun s _ => hcon s
    omega
  · intro σ τ _ hne
    rw [ferro_ham]
    exact (low σ τ hne).1
  · intro σ τ _ hne hstep
    rw [ferro_ham]
    exact (low σ τ hne).2 hstep

end

/-! ### C124 -/

/-- C124. On a rectangle with at least two rows and two columns and at least one hole, moves of holes to neighbouring sites lead from every
occupation to every other one with the same numbers of holes and spins. -/
theorem C124_connected (W H n : Nat) (hW : 2 ≤ W) (hH : 2 ≤ H) (hn : n = W * H) (σ τ : Conf n) (h : ∀ o, σ.count o = τ.count o) (s : Fin n)
    (hs : σ s = .hole) :
    Relation.ReflTransGen (fun σ τ : Conf n => ∃ a b, σ a = .hole ∧ σ b ≠ .hole ∧ Near (gridPos W a) (gridPos W b) ∧ τ = exch σ a b) σ τ :=
  hops_all (grid_tiled hW hH hn) (fun a b => grid_joined W H hn a b) σ τ h ⟨s, hs⟩

/-- C124. With a hole and `t` not zero, without antiferromagnetic spin flips, the coefficients of a lowest state of a sector are not zero: for
negative `t` they all have the same sign, for positive `t` the signs count the holes on black fields. -/
theorem C124_signs (E : Env) (c : Config) (nbh nbv nb : Nat) (hc : RectConf c nbh nbv nb) (hf : c.Full) (hn : c.nholes + c.nbeta ≤ c.nsites)
    (hh : 1 ≤ c.nholes) (hW : 2 ≤ nbh * nb) (hV : 2 ≤ nbv * nb)
    (I : Interactions ℝ) (B : BoolInteractions) (hbt : B.bt = true) (ht : I.t ≠ 0) (hJ : B.bij = true → I.J ≤ 0 ∧ I.Jhpar ≤ 0 ∧ I.Jhper ≤ 0)
    (hS : B.bSD = true → I.hSDpar = 0 ∧ I.hSDper = 0) (hN : B.btN = true → I.tNNN ≤ 0 ∧ I.tnNNN ≤ 0) (r : List Nat) (v : Bool)
    (dets : List (List Nat)) (hb : constructBasis c = .ok dets) (H : SpMat ℝ) (hH : buildHamiltonian E c I dets B r v = .ok H)
    (e : ℝ) (he : IsLeast {μ | Module.End.HasEigenvalue (Matrix.toLin' H.toMatrix) μ} e)
    (x : Fin H.dim → ℝ) (hx : H.toMatrix *ᵥ x = e • x) (hne : x ≠ 0) (i j : Fin H.dim) (hi : i.1 < dets.length) (hj : j.1 < dets.length) :
    0 < ferroSign I.t (fun t : Fin c.nsites => gridPos (nbh * nb) t) (conf c dets[i.1]) * x i *
      (ferroSign I.t (fun t : Fin c.nsites => gridPos (nbh * nb) t) (conf c dets[j.1]) * x j) := by
  obtain ⟨hd, h⟩ := hole_signs hc hf hn hh hW hV hbt ht hJ hS hN hb hH
  obtain ⟨p1, p2, p3, p4⟩ := h _ (fun i => rfl)
  exact perron p1 _ p2 p3 p4 (least_min p1 he) x hx hne i j

/-- C124. With a hole and `t` not zero, without antiferromagnetic spin flips, the lowest state of every sector is unique. -/
theorem C124_unique (E : Env) (c : Config) (nbh nbv nb : Nat) (hc : RectConf c nbh nbv nb) (hf : c.Full) (hn : c.nholes + c.nbeta ≤ c.nsites)
    (hh : 1 ≤ c.nholes) (hW : 2 ≤ nbh * nb) (hV : 2 ≤ nbv * nb)
    (I : Interactions ℝ) (B : BoolInteractions) (hbt : B.bt = true) (ht : I.t ≠ 0) (hJ : B.bij = true → I.J ≤ 0 ∧ I.Jhpar ≤ 0 ∧ I.Jhper ≤ 0)
    (hS : B.bSD = true → I.hSDpar = 0 ∧ I.hSDper = 0) (hN : B.btN = true → I.tNNN ≤ 0 ∧ I.tnNNN ≤ 0) (r : List Nat) (v : Bool)
    (dets : List (List Nat)) (hb : constructBasis c = .ok dets) (H : SpMat ℝ) (hH : buildHamiltonian E c I dets B r v = .ok H) :
    ∃ e, IsLeast {μ | Module.End.HasEigenvalue (Matrix.toLin' H.toMatrix) μ} e ∧
      Module.finrank ℝ (Module.End.eigenspace (Matrix.toLin' H.toMatrix) e) = 1 :=
  unique_of_signs hn hb (hole_signs hc hf hn hh hW hV hbt ht hJ hS hN hb hH)

/-- C124. With exchange couplings that are not positive, or with the whole exchange off, this state has the largest total spin: the hopping
alone makes the lattice ferromagnetic. -/
theorem C124_total_spin (E : Env) (c : Config) (nbh nbv nb : Nat) (hc : RectConf c nbh nbv nb) (hf : c.Full) (hn : c.nholes + c.nbeta ≤ c.nsites)
    (hh : 1 ≤ c.nholes) (hW : 2 ≤ nbh * nb) (hV : 2 ≤ nbv * nb)
    (I : Interactions ℝ) (B : BoolInteractions) (hbt : B.bt = true) (ht : I.t ≠ 0) (hB : B.bz = B.bij)
    (hJ : B.bij = true → I.J ≤ 0 ∧ I.Jhpar ≤ 0 ∧ I.Jhper ≤ 0)
    (hS : B.bSD = true → I.hSDpar = 0 ∧ I.hSDper = 0) (hN : B.btN = true → I.tNNN ≤ 0 ∧ I.tnNNN ≤ 0)
    (dets : List (List Nat)) (hb : constructBasis c = .ok dets) (H : SpMat ℝ) (hH : buildHamiltonian E c I dets B = .ok H)
    (e : ℝ) (he : IsLeast {μ | Module.End.HasEigenvalue (Matrix.toLin' H.toMatrix) μ} e)
    (x : Fin H.dim → ℝ) (hx : H.toMatrix *ᵥ x = e • x) (σ : Conf c.nsites) :
    spin2 (state c dets x) σ =
      (((c.nsites - c.nholes : Nat) : ℝ) / 2 * (((c.nsites - c.nholes : Nat) : ℝ) / 2 + 1)) * state c dets x σ :=
  total_spin_of_signs E c nbh nbv nb hc hf hn I B hB (by rw [hB]; exact hJ) hS hN dets hb H hH
    (hole_signs hc hf hn hh hW hV hbt ht hJ hS hN hb hH)
    (fun _ _ a1 a2 => hole_signs (c := { c with nbeta := 0 }) (hc.with_nbeta 0) hf (by show c.nholes + 0 ≤ c.nsites; omega) hh hW hV hbt ht hJ hS hN
      a1 a2) e he x hx σ

/-- C124. The number computed for that state by `compute_spin_number`, as long as the set order lists the holes increasingly. -/
theorem C124_spin_number (E : Env) (S : SetSem) (swap : Bool) (c : Config) (nbh nbv nb : Nat) (hc : RectConf c nbh nbv nb) (hf : c.Full)
    (ho : HolesInOrder S c) (hn : c.nholes + c.nbeta ≤ c.nsites) (hh : 1 ≤ c.nholes) (hW : 2 ≤ nbh * nb) (hV : 2 ≤ nbv * nb)
    (I : Interactions ℝ) (B : BoolInteractions) (hbt : B.bt = true) (ht : I.t ≠ 0) (hB : B.bz = B.bij)
    (hJ : B.bij = true → I.J ≤ 0 ∧ I.Jhpar ≤ 0 ∧ I.Jhper ≤ 0)
    (hS : B.bSD = true → I.hSDpar = 0 ∧ I.hSDper = 0) (hN : B.btN = true → I.tNNN ≤ 0 ∧ I.tnNNN ≤ 0)
    (dets : List (List Nat)) (hb : constructBasis c = .ok dets) (H : SpMat ℝ) (hH : buildHamiltonian E c I dets B = .ok H)
    (e : ℝ) (he : IsLeast {μ | Module.End.HasEigenvalue (Matrix.toLin' H.toMatrix) μ} e)
    (x : Fin H.dim → ℝ) (hx : H.toMatrix *ᵥ x = e • x) (hne : x ≠ 0) :
    computeSpinNumber S swap c (List.ofFn x) = .ok (.num (((c.nsites - c.nholes : Nat) : ℝ) / 2)) := by
  obtain ⟨H', h1, hd, _, _⟩ := buildHamiltonian_spec I (hc.tj E) hf hn hb B [] false
  obtain rfl := Except.ok.inj (hH.symm.trans h1)
  exact spin_number_of hf ho hn hb hd x hne _
    (C124_total_spin E c nbh nbv nb hc hf hn hh hW hV I B hbt ht hB hJ hS hN dets hb H hH e he x hx)

/-! ### A single row -/

/-- Without down spins every exchange is a move of a hole. -/
theorem hops_polarised {n : Nat} {pos : Fin n → Pt} (hj : ∀ a b, Joined pos a b) (σ τ : Conf n) (hdn : σ.count .down = 0)
    (hcnt : ∀ o, σ.count o = τ.count o) : HopReach pos σ τ := by
  have hst := steps_all hj σ τ hcnt
  clear hcnt
  suffices h : HopReach pos σ τ ∧ τ.count .down = 0 from h.1
  induction hst with
  | refl => exact ⟨Relation.ReflTransGen.refl, hdn⟩
  | @tail υ τ _ hstep ih =>
    obtain ⟨i1, i2⟩ := ih
    obtain ⟨a, b, hab, hne, rfl⟩ := hstep
    refine ⟨i1.trans ?_, by rw [exch_comp, count_comp]; exact i2⟩
    have hnd : ∀ s, υ s ≠ .down := by
      unfold Conf.count at i2
      rw [card_eq_zero, filter_eq_empty_iff] at i2
      exact fun s => i2 (mem_univ s)
    by_cases ha : υ a = .hole
    · exact hop_near ha hab
    · refine hop_near' ?_ hab
      have q1 := hnd a
      have q2 := hnd b
      revert ha hne q1 q2
      cases υ a <;> cases υ b <;> simp

/-- In a rectangle of one row or one column neighbours are consecutive. -/
theorem grid_inRow {W H n : Nat} (hn : n = W * H) (h : W = 1 ∨ H = 1) : InRow fun s : Fin n => gridPos W s := by
  intro a b hab
  have ha := a.2
  have hb := b.2
  have hab : Near (gridPos W a) (gridPos W b) := hab
  unfold Near gridPos at hab
  rcases h with rfl | rfl
  · simp only [Nat.mod_one, Nat.div_one] at hab
    omega
  · rw [Nat.mul_one] at hn
    subst hn
    rw [Nat.mod_eq_of_lt ha, Nat.mod_eq_of_lt hb, Nat.div_eq_of_lt ha, Nat.div_eq_of_lt hb] at hab
    omega

theorem card_rowWords {c : Config} (hn : c.nholes + c.nbeta ≤ c.nsites) :
    (rowWords c.nsites c.nholes c.nbeta).card = (c.nsites - c.nholes).choose c.nbeta := by
  have h1 := card_words (n := c.nsites) c.nholes c.nbeta
  rw [card_sectorConfs hn (constructBasis_eq c), length_basisList] at h1
  have h2 : (sectorConfs c.nsites c.nholes 0).card = c.nsites.choose c.nholes := by
    have := card_sectorConfs (c := { c with nbeta := 0 }) (by show c.nholes + 0 ≤ c.nsites; omega) (constructBasis_eq { c with nbeta := 0 })
    rw [length_basisList] at this
    have e : ({ c with nbeta := 0 } : Config).nsites.choose c.nholes * (({ c with nbeta := 0 } : Config).nsites - c.nholes).choose 0 =
      c.nsites.choose c.nholes := by rw [Nat.choose_zero_right, Nat.mul_one]; rfl
    exact this.trans e
  rw [h2, Nat.mul_comm] at h1
  exact Nat.eq_of_mul_eq_mul_left (Nat.choose_pos (by omega)) h1

/-- C124. A single row is different: with the hopping and the repulsion alone every energy of a sector is an energy of the sector without down
spins, and its multiplicity is larger by the factor `(n - h choose b)`, one for each order of the spins. -/
theorem C124_row (E : Env) (c : Config) (nbh nbv nb : Nat) (hc : RectConf c nbh nbv nb) (hf : c.Full) (hn : c.nholes + c.nbeta ≤ c.nsites)
    (hrow : nbh * nb = 1 ∨ nbv * nb = 1) (I : Interactions ℝ) (B : BoolInteractions)
    (hB : B.bz = false ∧ B.bij = false ∧ B.bSD = false ∧ B.btN = false) (r : List Nat) (v : Bool)
    (dets : List (List Nat)) (hb : constructBasis c = .ok dets) (H : SpMat ℝ) (hH : buildHamiltonian E c I dets B r v = .ok H)
    (d : List (List Nat)) (hd : constructBasis { c with nbeta := 0 } = .ok d) (G : SpMat ℝ)
    (hG : buildHamiltonian E { c with nbeta := 0 } I d B r v = .ok G) (μ : ℝ) :
    Module.finrank ℝ (Module.End.eigenspace (Matrix.toLin' H.toMatrix) μ) =
      (c.nsites - c.nholes).choose c.nbeta * Module.finrank ℝ (Module.End.eigenspace (Matrix.toLin' G.toMatrix) μ) := by
  have hn0 : c.nholes + 0 ≤ c.nsites := by omega
  rw [eigenspace_map hc hf hn hb hH, eigenspace_map (c := { c with nbeta := 0 }) (hc.with_nbeta 0) hf hn0 hd hG,
    finrank_row (grid_inRow hc.spec.1 hrow) hB, card_rowWords hn]
  rfl

/-- C124. So the lowest energy of a row has exactly this multiplicity: the condition of two rows and two columns cannot be dropped. -/
theorem C124_row_lowest (E : Env) (c : Config) (nbh nbv nb : Nat) (hc : RectConf c nbh nbv nb) (hf : c.Full) (hn : c.nholes + c.nbeta ≤ c.nsites)
    (hrow : nbh * nb = 1 ∨ nbv * nb = 1) (I : Interactions ℝ) (ht : I.t ≠ 0) (B : BoolInteractions) (hbt : B.bt = true)
    (hB : B.bz = false ∧ B.bij = false ∧ B.bSD = false ∧ B.btN = false) (r : List Nat) (v : Bool)
    (dets : List (List Nat)) (hb : constructBasis c = .ok dets) (H : SpMat ℝ) (hH : buildHamiltonian E c I dets B r v = .ok H) :
    ∃ e, IsLeast {μ | Module.End.HasEigenvalue (Matrix.toLin' H.toMatrix) μ} e ∧
      Module.finrank ℝ (Module.End.eigenspace (Matrix.toLin' H.toMatrix) e) = (c.nsites - c.nholes).choose c.nbeta := by
  have hn0 : c.nholes + 0 ≤ c.nsites := by omega
  obtain ⟨d, G, a1, a2, _⟩ := C30_no_failure E { c with nbeta := 0 } nbh nbv nb (hc.with_nbeta 0) hf hn0 I B r v
  have hall := C124_row E c nbh nbv nb hc hf hn hrow I B hB r v dets hb H hH d a1 G a2
  -- the sector without down spins has one lowest state
  obtain ⟨l1, l2, l3, l4, l5, l6, l7⟩ := lowT_same I
  have low := fun (σ τ : Conf c.nsites) (hne : τ ≠ σ) => low_hop (I := lowT I) (pos := fun t : Fin c.nsites => gridPos (nbh * nb) t) (B := B) hbt
    (lowT_t I ht) (by rw [hB.2.1]; simp) (by rw [hB.2.2.1]; simp) (by rw [hB.2.2.2]; simp) hne
  have hs : SignRule { c with nbeta := 0 } (nbh * nb) I.t d G := by
    refine signs_steps (c := { c with nbeta := 0 }) (hc.with_nbeta 0) hf hn0 a1 a2
      (fun σ τ : Conf c.nsites => HopStep (fun t : Fin c.nsites => gridPos (nbh * nb) t) σ τ) ?_ ?_ _ (ferroSign_sq _ _) ?_ ?_
    · rintro σ τ ⟨a, b, h1, h2, _, e⟩
      exact ⟨a, b, fun h => h2 (h ▸ h1), e⟩
    · intro σ τ _ hdn hcnt
      exact hops_polarised (n := c.nsites) (fun a b => grid_joined (nbh * nb) (nbv * nb) hc.spec.1 a b) σ τ hdn hcnt
    · intro σ τ _ hne
      rw [ferro_ham]
      exact (low σ τ hne).1
    · intro σ τ _ hne hstep
      rw [ferro_ham]
      exact (low σ τ hne).2 hstep
  obtain ⟨e, he, hone⟩ := unique_of_signs (c := { c with nbeta := 0 }) hn0 a1 hs
  have hpos : 0 < (c.nsites - c.nholes).choose c.nbeta := Nat.choose_pos (by omega)
  have hfin := hall e
  rw [hone, Nat.mul_one] at hfin
  have hpm : ∀ {k : Nat} (M : Matrix (Fin k) (Fin k) ℝ) (μ : ℝ), Module.End.HasEigenvalue (Matrix.toLin' M) μ ↔
      Module.finrank ℝ (Module.End.eigenspace (Matrix.toLin' M) μ) ≠ 0 := fun M μ => by
    rw [Module.End.hasEigenvalue_iff, ne_eq, ne_eq, Submodule.finrank_eq_zero]
  refine ⟨e, ⟨?_, fun μ hμ => he.2 ?_⟩, hfin⟩
  · show Module.End.HasEigenvalue _ e
    rw [hpm, hfin]
    omega
  · show Module.End.HasEigenvalue _ μ
    have hμ : Module.End.HasEigenvalue (Matrix.toLin' H.toMatrix) μ := hμ
    rw [hpm] at hμ ⊢
    intro h0
    rw [hall, h0, Nat.mul_zero] at hμ
    exact hμ rfl

/-! ### Cases that meet the hypotheses -/

/-- 3 x 2 sites, one hole, two down spins, the hopping alone with `t = 1`: one lowest state, spin 5/2. -/
example (I : Interactions ℝ) (ht : I.t = 1) : ∃ dets H, constructBasis (rectConf 3 2 1 1 2) = .ok dets ∧
    buildHamiltonian exEnv (rectConf 3 2 1 1 2) I dets ⟨true, false, false, false, false, false⟩ = .ok H ∧ H.dim = 60 ∧
    ∃ (e : ℝ) (x : Fin H.dim → ℝ), IsLeast {μ | Module.End.HasEigenvalue (Matrix.toLin' H.toMatrix) μ} e ∧
      Module.finrank ℝ (Module.End.eigenspace (Matrix.toLin' H.toMatrix) e) = 1 ∧ H.toMatrix *ᵥ x = e • x ∧ x ≠ 0 ∧ (∀ i, x i ≠ 0) ∧
      computeSpinNumber SetSem.listed false (rectConf 3 2 1 1 2) (List.ofFn x) = .ok (.num (5 / 2)) := by
  have hc : RectConf (rectConf 3 2 1 1 2) 3 2 1 := rectConf_ok _ _ _ _ _ (by decide) (by decide) (by decide)
  have hf : Config.Full (rectConf 3 2 1 1 2) := by unfold Config.Full; decide +kernel
  have hn : (rectConf 3 2 1 1 2).nholes + (rectConf 3 2 1 1 2).nbeta ≤ (rectConf 3 2 1 1 2).nsites := by decide +kernel
  have ht : I.t ≠ 0 := by rw [ht]; norm_num
  obtain ⟨d, H, a1, a2, a4, a3, _⟩ := C30_no_failure exEnv _ 3 2 1 hc hf hn I ⟨true, false, false, false, false, false⟩ [] false
  have g1 : H.dim = 60 := by
    rw [a4, C02_dimension _ _ a1]
    decide +kernel
  obtain ⟨e, he, hone⟩ := C124_unique exEnv _ 3 2 1 hc hf hn (by decide) (by decide) (by decide) I _ rfl ht (by simp) (by simp) (by simp) [] false d a1 H a2
  obtain ⟨x, hx, hne⟩ := he.1.exists_hasEigenvector
  rw [Module.End.mem_eigenspace_iff, Matrix.toLin'_apply] at hx
  refine ⟨d, H, a1, a2, g1, e, x, he, hone, hx, hne, fun i h0 => ?_, ?_⟩
  · have := C124_signs exEnv _ 3 2 1 hc hf hn (by decide) (by decide) (by decide) I _ rfl ht (by simp) (by simp) (by simp) [] false d a1 H a2 e he x hx hne
      i i (a4 ▸ i.2) (a4 ▸ i.2)
    rw [h0] at this
    simp at this
  · have := C124_spin_number exEnv SetSem.listed false _ 3 2 1 hc hf (C39_one_hole_in_order SetSem.listed _ (by decide)) hn (by decide) (by decide) (by decide) I _
      rfl ht rfl (by simp) (by simp) (by simp) d a1 H a2 e he x hx hne
    refine this.trans ?_
    have h4 : ((rectConf 3 2 1 1 2).nsites - (rectConf 3 2 1 1 2).nholes : Nat) = 5 := by decide +kernel
    rw [h4]
    norm_num

/-- A row of five sites with one hole and two down spins: the lowest energy has multiplicity six. -/
example (I : Interactions ℝ) (ht : I.t = 1) : ∃ dets H, constructBasis (rectConf 5 1 1 1 2) = .ok dets ∧
    buildHamiltonian exEnv (rectConf 5 1 1 1 2) I dets ⟨true, false, false, false, false, true⟩ = .ok H ∧
    ∃ e, IsLeast {μ | Module.End.HasEigenvalue (Matrix.toLin' H.toMatrix) μ} e ∧
      Module.finrank ℝ (Module.End.eigenspace (Matrix.toLin' H.toMatrix) e) = 6 := by
  have hc : RectConf (rectConf 5 1 1 1 2) 5 1 1 := rectConf_ok _ _ _ _ _ (by decide) (by decide) (by decide)
  have hf : Config.Full (rectConf 5 1 1 1 2) := by unfold Config.Full; decide +kernel
  have hn : (rectConf 5 1 1 1 2).nholes + (rectConf 5 1 1 1 2).nbeta ≤ (rectConf 5 1 1 1 2).nsites := by decide +kernel
  obtain ⟨d, H, a1, a2, _⟩ := C30_no_failure exEnv _ 5 1 1 hc hf hn I ⟨true, false, false, false, false, true⟩ [] false
  obtain ⟨e, he, h6⟩ := C124_row_lowest exEnv _ 5 1 1 hc hf hn (.inr rfl) I (by rw [ht]; norm_num) _ rfl ⟨rfl, rfl, rfl, rfl⟩ [] false d a1 H a2
  have h7 : ((rectConf 5 1 1 1 2).nsites - (rectConf 5 1 1 1 2).nholes).choose (rectConf 5 1 1 1 2).nbeta = 6 := by decide +kernel
  exact ⟨d, H, a1, a2, e, he, h6.trans h7⟩

/-- Two occupations of 2 x 2 sites that differ by an exchange of spins. -/
example : Relation.ReflTransGen (fun σ τ : Conf 4 => ∃ a b, σ a = .hole ∧ σ b ≠ .hole ∧ Near (gridPos 2 a) (gridPos 2 b) ∧ τ = exch σ a b)
    ![.hole, .up, .down, .up] ![.hole, .down, .up, .up] :=
  C124_connected 2 2 4 (by decide) (by decide) rfl _ _ (by intro o; cases o <;> decide) 0 rfl

end TJ
