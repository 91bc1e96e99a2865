/-
The moving electrons as fermions (C127): with one hole, and on a single row, the matrix of the code is that of fermions up to the signs of the
basis vectors; with two holes and two electrons of the same spin on a rectangle it is not, and the energies are different.
-/
import Verif.Lemmas.FermiWalks
import Verif.Props.MovingHole
import Verif.Props.LiebMattis

namespace TJ

open Finset Matrix

section
variable {K : Type} [Field K] {n : Nat}

theorem one_or_neg {x : K} (h : x * x = 1) : x = 1 ∨ x = -1 := by
  have : (x - 1) * (x + 1) = 0 := by linear_combination h
  rcases mul_eq_zero.1 this with h | h
  · exact Or.inl (by linear_combination h)
  · exact Or.inr (by linear_combination h)

/-- From the numbering site by site to any other one. -/
theorem gauge_order {ord : Mode n → Nat} (ho : Function.Injective ord) {I : Interactions K} {pos : Fin n → Pt} {B : BoolInteractions} (g : Conf n → K)
    (σ τ : Conf n) : g σ * g τ * fermiEl siteOrder I pos B σ τ =
      g σ * orderSign K ord siteOrder (fock σ) * (g τ * orderSign K ord siteOrder (fock τ)) * fermiEl ord I pos B σ τ := by
  rw [fermi_order _ _ _ ho]
  have e1 := orderSign_sq (K := K) ord siteOrder (fock σ)
  have e2 := orderSign_sq (K := K) ord siteOrder (fock τ)
  linear_combination (-(g σ * g τ * fermiEl siteOrder I pos B σ τ * (orderSign K ord siteOrder (fock τ) * orderSign K ord siteOrder (fock τ)))) * e1 -
    g σ * g τ * fermiEl siteOrder I pos B σ τ * e2

theorem scaleHops_scale (I : Interactions K) : scaleHops (scaleHops I (-1)) (-1) = I := by
  cases I
  simp [scaleHops]

theorem scaleHops_one (I : Interactions K) : scaleHops I 1 = I := by
  cases I
  simp [scaleHops]

end

/-! ### C127 -/

/-- C127. The operators used to state the property are fermionic: they satisfy the canonical anticommutation relations. -/
theorem C127_anticommute {K : Type} [Field K] {M : Type} [Fintype M] [DecidableEq M] (ord : M → Nat) (ho : Function.Injective ord) (m k : M) :
    annih K ord m * annih K ord k + annih K ord k * annih K ord m = 0 ∧
      annih K ord m * create K ord k + create K ord k * annih K ord m = if m = k then 1 else 0 :=
  ⟨annih_anti ho m k, annih_create ho m k⟩

/-- C127. With at most one hole the matrix is the one of fermions, up to the signs of the basis vectors, where the electrons hop with the
opposite sign. Missing: more than one hole, where it fails on rectangles (`C127_fails`); and the singlet displacement. -/
theorem C127_one_hole_partial {K : Type} [Field K] (E : Env) (c : Config) (nbh nbv nb : Nat) (hc : RectConf c nbh nbv nb)
    (hf : c.Full) (hn : c.nholes + c.nbeta ≤ c.nsites) (h1 : c.nholes ≤ 1) (I : Interactions K) (B : BoolInteractions) (hB : B.bSD = false)
    (r : List Nat) (v : Bool) (dets : List (List Nat)) (hb : constructBasis c = .ok dets) (H : SpMat K)
    (hH : buildHamiltonian E c I dets B r v = .ok H) (ord : Mode c.nsites → Nat) (ho : Function.Injective ord) :
    ∃ ε : Conf c.nsites → K, (∀ σ, ε σ = 1 ∨ ε σ = -1) ∧ ∀ i j (hi : i < dets.length) (hj : j < dets.length),
      H.entry i j = ε (conf c dets[i]) * ε (conf c dets[j]) *
        fermiEl ord { I with t := - I.t, tNNN := - I.tNNN, tnNNN := - I.tnNNN } (fun s => gridPos (nbh * nb) s) B (conf c dets[i]) (conf c dets[j]) := by
  refine ⟨fun σ => holeSign inLine σ * orderSign K ord siteOrder (fock σ), fun σ => one_or_neg ?_, fun i j hi hj => ?_⟩
  · linear_combination (orderSign K ord siteOrder (fock σ) * orderSign K ord siteOrder (fock σ)) * holeSign_sq (K := K) inLine σ +
      orderSign_sq (K := K) ord siteOrder (fock σ)
  · have hI : ({ I with t := - I.t, tNNN := - I.tNNN, tnNNN := - I.tnNNN } : Interactions K) = scaleHops I (-1) := by
      cases I
      simp [scaleHops]
    have hcnt : ∀ a, conf c dets[i] a = .hole → (conf c dets[i]).count .hole = 1 := by
      intro a ha
      have e1 := count_conf_hole hn (canonical_getElem hb i hi).1
      have e2 : 0 < (conf c dets[i]).count .hole := card_pos.2 ⟨a, mem_filter.2 ⟨mem_univ _, ha⟩⟩
      omega
    rw [C31_matrix_elements E c nbh nbv nb hc hf hn I B r v dets hb H hH i j hi hj, hI, ← gauge_order ho (holeSign inLine)]
    have := gauge_ham (scaleHops I (-1)) (fun s : Fin c.nsites => gridPos (nbh * nb) s) hB (holeSign inLine) (-1) (σ := conf c dets[i])
      (holeSign_sq _ _) (fun τ h => (holeSign_congr _ h).symm) (fun _ a b ha hb _ => one_hole_gauge (hcnt a ha) ha hb)
      (fun _ a b ha hb _ => one_hole_gauge (hcnt a ha) ha hb) (conf c dets[j])
    rwa [scaleHops_scale] at this

/-- C127. With at most one hole and without the hopping to second neighbours, also with the same sign of the hopping. -/
theorem C127_one_hole_same_sign_partial {K : Type} [Field K] (E : Env) (c : Config) (nbh nbv nb : Nat) (hc : RectConf c nbh nbv nb)
    (hf : c.Full) (hn : c.nholes + c.nbeta ≤ c.nsites) (h1 : c.nholes ≤ 1) (I : Interactions K) (B : BoolInteractions) (hB : B.bSD = false)
    (hN : B.btN = false) (r : List Nat) (v : Bool) (dets : List (List Nat)) (hb : constructBasis c = .ok dets) (H : SpMat K)
    (hH : buildHamiltonian E c I dets B r v = .ok H) (ord : Mode c.nsites → Nat) (ho : Function.Injective ord) :
    ∃ ε : Conf c.nsites → K, (∀ σ, ε σ = 1 ∨ ε σ = -1) ∧ ∀ i j (hi : i < dets.length) (hj : j < dets.length),
      H.entry i j = ε (conf c dets[i]) * ε (conf c dets[j]) *
        fermiEl ord I (fun s => gridPos (nbh * nb) s) B (conf c dets[i]) (conf c dets[j]) := by
  set pos : Fin c.nsites → Pt := fun s => gridPos (nbh * nb) s with hpos
  set g : Conf c.nsites → K := fun σ => holeSign inLine σ * holeSign pos σ with hg
  have gsq : ∀ σ, g σ * g σ = 1 := fun σ => by
    show holeSign inLine σ * holeSign pos σ * (holeSign inLine σ * holeSign pos σ) = (1 : K)
    linear_combination (holeSign pos σ * holeSign pos σ : K) * holeSign_sq (K := K) inLine σ + holeSign_sq (K := K) pos σ
  refine ⟨fun σ => g σ * orderSign K ord siteOrder (fock σ), fun σ => one_or_neg ?_, fun i j hi hj => ?_⟩
  · linear_combination (orderSign K ord siteOrder (fock σ) * orderSign K ord siteOrder (fock σ)) * gsq σ +
      orderSign_sq (K := K) ord siteOrder (fock σ)
  · have hcnt : ∀ a, conf c dets[i] a = .hole → (conf c dets[i]).count .hole = 1 := by
      intro a ha
      have e1 := count_conf_hole hn (canonical_getElem hb i hi).1
      have e2 : 0 < (conf c dets[i]).count .hole := card_pos.2 ⟨a, mem_filter.2 ⟨mem_univ _, ha⟩⟩
      omega
    rw [C31_matrix_elements E c nbh nbv nb hc hf hn I B r v dets hb H hH i j hi hj, ← gauge_order ho g]
    have := gauge_ham I pos hB g 1 (σ := conf c dets[i]) (gsq _)
      (fun τ h => by
        show holeSign inLine τ * holeSign pos τ = holeSign inLine (conf c dets[i]) * holeSign pos (conf c dets[i])
        rw [holeSign_congr inLine h, holeSign_congr pos h])
      (fun _ a b ha hb hnear => by
        have q1 := one_hole_gauge (K := K) (hcnt a ha) ha hb
        have q2 := holeSign_exch (K := K) pos ha hb
        rw [colourSign_near hnear] at q2
        show holeSign inLine (conf c dets[i]) * holeSign pos (conf c dets[i]) *
          (holeSign inLine (exch (conf c dets[i]) a b) * holeSign pos (exch (conf c dets[i]) a b)) * jumpSign K (conf c dets[i]) a b = 1
        linear_combination (holeSign pos (conf c dets[i]) * holeSign pos (exch (conf c dets[i]) a b) : K) * q1 - q2)
      (fun h => by rw [hN] at h; exact absurd h (by simp)) (conf c dets[j])
    rwa [scaleHops_one] at this

/-- C127. On a single row or column, with any number of holes and without the hopping to second neighbours, the matrix is the one of fermions up
to the signs of the basis vectors. Missing: rectangles, where it fails (`C127_fails`). -/
theorem C127_row_partial {K : Type} [Field K] (E : Env) (c : Config) (nbh nbv nb : Nat) (hc : RectConf c nbh nbv nb)
    (hf : c.Full) (hn : c.nholes + c.nbeta ≤ c.nsites) (hrow : nbh * nb = 1 ∨ nbv * nb = 1) (I : Interactions K) (B : BoolInteractions)
    (hB : B.bSD = false) (hN : B.btN = false) (r : List Nat) (v : Bool) (dets : List (List Nat)) (hb : constructBasis c = .ok dets) (H : SpMat K)
    (hH : buildHamiltonian E c I dets B r v = .ok H) (ord : Mode c.nsites → Nat) (ho : Function.Injective ord) :
    ∃ ε : Conf c.nsites → K, (∀ σ, ε σ = 1 ∨ ε σ = -1) ∧ ∀ i j (hi : i < dets.length) (hj : j < dets.length),
      H.entry i j = ε (conf c dets[i]) * ε (conf c dets[j]) *
        fermiEl ord I (fun s => gridPos (nbh * nb) s) B (conf c dets[i]) (conf c dets[j]) := by
  refine ⟨fun σ => 1 * orderSign K ord siteOrder (fock σ), fun σ => one_or_neg ?_, fun i j hi hj => ?_⟩
  · linear_combination orderSign_sq (K := K) ord siteOrder (fock σ)
  · rw [C31_matrix_elements E c nbh nbv nb hc hf hn I B r v dets hb H hH i j hi hj, ← gauge_order ho (fun _ => 1)]
    have := gauge_ham I (fun s : Fin c.nsites => gridPos (nbh * nb) s) hB (fun _ => (1 : K)) 1 (σ := conf c dets[i]) (one_mul 1) (fun _ _ => rfl)
      (fun _ a b ha hb hnear => by rw [jump_row (grid_inRow hc.spec.1 hrow) _ hnear]; ring)
      (fun h => by rw [hN] at h; exact absurd h (by simp)) (conf c dets[j])
    rwa [scaleHops_one] at this

/-! ### Two holes on a rectangle -/

section
variable {c : Config} {nbh nbv nb : Nat} {dets : List (List Nat)}

/-- The cycle in the basis of a sector. -/
theorem sector_cycle (hc : RectConf c nbh nbv nb) (hn : c.nholes + c.nbeta ≤ c.nsites) (hW : 2 ≤ nbh * nb) (hV : 2 ≤ nbv * nb)
    (hh : 2 ≤ c.nholes) (hs : 2 ≤ c.nbeta ∨ c.nholes + c.nbeta + 2 ≤ c.nsites) (hb : constructBasis c = .ok dets) :
    ∃ (i1 i2 i3 i4 : Nat) (h1 : i1 < dets.length) (h2 : i2 < dets.length) (h3 : i3 < dets.length) (h4 : i4 < dets.length) (j1 j2 j3 j4 : ℝ),
      (∀ (I : Interactions ℝ) (B : BoolInteractions),
        fermiEl siteOrder I (fun s => gridPos (nbh * nb) s) B (conf c dets[i1]) (conf c dets[i2]) = (if B.bt then I.t else 0) * j1 ∧
        fermiEl siteOrder I (fun s => gridPos (nbh * nb) s) B (conf c dets[i2]) (conf c dets[i3]) = (if B.bt then I.t else 0) * j2 ∧
        fermiEl siteOrder I (fun s => gridPos (nbh * nb) s) B (conf c dets[i3]) (conf c dets[i4]) = (if B.bt then I.t else 0) * j3 ∧
        fermiEl siteOrder I (fun s => gridPos (nbh * nb) s) B (conf c dets[i4]) (conf c dets[i1]) = (if B.bt then I.t else 0) * j4) ∧
      (∀ (I : Interactions ℝ) (B : BoolInteractions), B.bt = true →
        hamEl I (fun s => gridPos (nbh * nb) s) B (conf c dets[i1]) (conf c dets[i2]) = I.t ∧
        hamEl I (fun s => gridPos (nbh * nb) s) B (conf c dets[i2]) (conf c dets[i3]) = I.t ∧
        hamEl I (fun s => gridPos (nbh * nb) s) B (conf c dets[i3]) (conf c dets[i4]) = I.t ∧
        hamEl I (fun s => gridPos (nbh * nb) s) B (conf c dets[i4]) (conf c dets[i1]) = I.t) ∧
      j1 * j2 * j3 * j4 = -1 := by
  obtain ⟨p, q, u, v, hp, hq, hu, hv, n1, n2, n3, n4⟩ := first_tile hW hV hc.spec.1
  have hpos := dets_pos hn hb
  have c1 := count_conf_hole hn (canonical_getElem hb 0 hpos).1
  have c2 := count_conf_down hn (canonical_getElem hb 0 hpos).1
  have hsp : ∃ s, 2 ≤ (conf c dets[0]).count (spinOcc s) := by
    rcases hs with hs | hs
    · exact ⟨false, by show 2 ≤ (conf c dets[0]).count .down; omega⟩
    · refine ⟨true, ?_⟩
      show 2 ≤ (conf c dets[0]).count .up
      have c3 := count_conf_up hn (canonical_getElem hb 0 hpos).1
      unfold Config.nalpha at c3
      omega
  obtain ⟨s, hs2⟩ := hsp
  have ne : ∀ {a b : Fin c.nsites}, a.1 ≠ b.1 → a ≠ b := fun h e => h (congrArg Fin.val e)
  obtain ⟨σ, hcnt, q1, q2, q3, q4⟩ := exists_tile (p := p) (q := q) (u := u) (v := v) (ne (by omega)) (ne (by omega)) (ne (by omega)) (ne (by omega))
    (ne (by omega)) (ne (by omega)) (conf c dets[0]) s (by omega) hs2
  obtain ⟨σ2, σ3, σ4, ⟨w1, x1, y1⟩, ⟨w2, x2, y2⟩, ⟨w3, x3, y3⟩, ⟨w4, x4, y4⟩, hj⟩ := tile_cycle ℝ hW hp hq hu hv (spinOcc_ne s) q1 q2 q3 q4
  have sec : ∀ ρ : Conf c.nsites, (∀ o, ρ.count o = (conf c dets[0]).count o) → ∃ k, ∃ hk : k < dets.length, conf c dets[k] = ρ := by
    intro ρ hρ
    exact exists_conf hb hn (by rw [hρ, c1]) (by rw [hρ, c2])
  have k2 : ∀ o, σ2.count o = (conf c dets[0]).count o := fun o => by rw [w1, count_exch, hcnt]
  have k3 : ∀ o, σ3.count o = (conf c dets[0]).count o := fun o => by rw [w2, count_exch, k2]
  have k4 : ∀ o, σ4.count o = (conf c dets[0]).count o := fun o => by rw [w3, count_exch, k3]
  obtain ⟨i1, h1, e1⟩ := sec σ hcnt
  obtain ⟨i2, h2, e2⟩ := sec σ2 k2
  obtain ⟨i3, h3, e3⟩ := sec σ3 k3
  obtain ⟨i4, h4, e4⟩ := sec σ4 k4
  have sym : ∀ {a b : Pt}, Near a b → Near b a := fun h => by
    unfold Near at h ⊢
    omega
  refine ⟨i1, i2, i3, i4, h1, h2, h3, h4, _, _, _, _, fun I B => ?_, fun I B hB => ?_, hj⟩
  · rw [e1, e2, e3, e4]
    have f1 := fermi_hop I (fun s : Fin c.nsites => gridPos (nbh * nb) s) B x1 y1 n4
    have f2 := fermi_hop I (fun s : Fin c.nsites => gridPos (nbh * nb) s) B x2 y2 (sym n3)
    have f3 := fermi_hop I (fun s : Fin c.nsites => gridPos (nbh * nb) s) B x3 y3 n1
    have f4 := fermi_hop I (fun s : Fin c.nsites => gridPos (nbh * nb) s) B x4 y4 (sym n2)
    rw [← w1] at f1
    rw [← w2] at f2
    rw [← w3] at f3
    rw [← w4] at f4
    exact ⟨f1, f2, f3, f4⟩
  · rw [e1, e2, e3, e4]
    have f1 := hamEl_exch I (fun s : Fin c.nsites => gridPos (nbh * nb) s) B hB x1 y1 n4
    have f2 := hamEl_exch I (fun s : Fin c.nsites => gridPos (nbh * nb) s) B hB x2 y2 (sym n3)
    have f3 := hamEl_exch I (fun s : Fin c.nsites => gridPos (nbh * nb) s) B hB x3 y3 n1
    have f4 := hamEl_exch I (fun s : Fin c.nsites => gridPos (nbh * nb) s) B hB x4 y4 (sym n2)
    rw [← w1] at f1
    rw [← w2] at f2
    rw [← w3] at f3
    rw [← w4] at f4
    exact ⟨f1, f2, f3, f4⟩

end

/-- C127, the full claim fails: on a rectangle with at least two rows and two columns, two holes and two electrons of the same spin, no
change of the signs or lengths of the basis vectors turns the matrix into that of fermions, not even one with other couplings or other terms. -/
theorem C127_fails (E : Env) (c : Config) (nbh nbv nb : Nat) (hc : RectConf c nbh nbv nb) (hf : c.Full) (hn : c.nholes + c.nbeta ≤ c.nsites)
    (hW : 2 ≤ nbh * nb) (hV : 2 ≤ nbv * nb) (hh : 2 ≤ c.nholes) (hs : 2 ≤ c.nbeta ∨ c.nholes + c.nbeta + 2 ≤ c.nsites)
    (I : Interactions ℝ) (B : BoolInteractions) (hbt : B.bt = true) (ht : I.t ≠ 0) (r : List Nat) (v : Bool)
    (dets : List (List Nat)) (hb : constructBasis c = .ok dets) (H : SpMat ℝ) (hH : buildHamiltonian E c I dets B r v = .ok H)
    (ord : Mode c.nsites → Nat) (ho : Function.Injective ord) (I' : Interactions ℝ) (B' : BoolInteractions) :
    ¬ ∃ ε : Nat → ℝ, (∀ i, ε i ≠ 0) ∧ ∀ i j (hi : i < dets.length) (hj : j < dets.length),
      H.entry i j = ε i * fermiEl ord I' (fun s => gridPos (nbh * nb) s) B' (conf c dets[i]) (conf c dets[j]) * (ε j)⁻¹ := by
  rintro ⟨ε, h0, h⟩
  obtain ⟨i1, i2, i3, i4, h1, h2, h3, h4, j1, j2, j3, j4, f, g, hj⟩ := sector_cycle hc hn hW hV hh hs hb
  obtain ⟨f1, f2, f3, f4⟩ := f I' B'
  obtain ⟨g1, g2, g3, g4⟩ := g I B hbt
  set T : ℝ := if B'.bt then I'.t else 0
  have el := C31_matrix_elements E c nbh nbv nb hc hf hn I B r v dets hb H hH
  let w : ∀ i, i < dets.length → ℝ := fun i hi => ε i * orderSign ℝ ord siteOrder (fock (conf c dets[i]))
  have w0 : ∀ i hi, w i hi ≠ 0 := by
    intro i hi
    refine mul_ne_zero (h0 i) fun e => ?_
    have := orderSign_sq (K := ℝ) ord siteOrder (fock (conf c dets[i]))
    rw [e] at this
    norm_num at this
  have step : ∀ i j (hi : i < dets.length) (hj : j < dets.length) (y : ℝ),
      hamEl I (fun s => gridPos (nbh * nb) s) B (conf c dets[i]) (conf c dets[j]) = I.t →
      fermiEl siteOrder I' (fun s => gridPos (nbh * nb) s) B' (conf c dets[i]) (conf c dets[j]) = y → I.t * w j hj = w i hi * y := by
    intro i j hi hj y e1 e2
    have e3 := h i j hi hj
    rw [el i j hi hj, e1, fermi_order _ _ _ ho, e2] at e3
    have e4 := orderSign_sq (K := ℝ) ord siteOrder (fock (conf c dets[j]))
    have e5 : (ε j)⁻¹ * ε j = 1 := inv_mul_cancel₀ (h0 j)
    rw [e3]
    show _ * (ε j * orderSign ℝ ord siteOrder (fock (conf c dets[j]))) = ε i * orderSign ℝ ord siteOrder (fock (conf c dets[i])) * y
    linear_combination (ε i * orderSign ℝ ord siteOrder (fock (conf c dets[i])) * y) * e4 +
      ε i * orderSign ℝ ord siteOrder (fock (conf c dets[i])) * y *
        (orderSign ℝ ord siteOrder (fock (conf c dets[j])) * orderSign ℝ ord siteOrder (fock (conf c dets[j]))) * e5
  have s1 := step i1 i2 h1 h2 _ g1 f1
  have s2 := step i2 i3 h2 h3 _ g2 f2
  have s3 := step i3 i4 h3 h4 _ g3 f3
  have s4 := step i4 i1 h4 h1 _ g4 f4
  have prod : (w i1 h1 * w i2 h2 * w i3 h3 * w i4 h4) * (I.t ^ 4 + T ^ 4) = 0 := by
    have e : I.t * w i2 h2 * (I.t * w i3 h3) * (I.t * w i4 h4) * (I.t * w i1 h1) =
        w i1 h1 * (T * j1) * (w i2 h2 * (T * j2)) * (w i3 h3 * (T * j3)) * (w i4 h4 * (T * j4)) := by rw [s1, s2, s3, s4]
    linear_combination e + (w i1 h1 * w i2 h2 * w i3 h3 * w i4 h4 * T ^ 4) * hj
  have hw : w i1 h1 * w i2 h2 * w i3 h3 * w i4 h4 ≠ 0 := mul_ne_zero (mul_ne_zero (mul_ne_zero (w0 _ _) (w0 _ _)) (w0 _ _)) (w0 _ _)
  have h4 := (mul_eq_zero.1 prod).resolve_left hw
  have p1 : 0 < I.t ^ 4 := by positivity
  have p2 : 0 ≤ T ^ 4 := by positivity
  linarith

/-- C127. In the same sectors, without second-neighbour hopping and singlet displacement, the energies differ: the sum of their fourth powers is larger than for fermions, and
the characteristic polynomials are different. -/
theorem C127_energies_differ (E : Env) (c : Config) (nbh nbv nb : Nat) (hc : RectConf c nbh nbv nb) (hf : c.Full) (hn : c.nholes + c.nbeta ≤ c.nsites)
    (hW : 2 ≤ nbh * nb) (hV : 2 ≤ nbv * nb) (hh : 2 ≤ c.nholes) (hs : 2 ≤ c.nbeta ∨ c.nholes + c.nbeta + 2 ≤ c.nsites)
    (I : Interactions ℝ) (B : BoolInteractions) (hbt : B.bt = true) (ht : I.t ≠ 0) (hB : B.bSD = false) (hN : B.btN = false) (r : List Nat) (v : Bool)
    (dets : List (List Nat)) (hb : constructBasis c = .ok dets) (H : SpMat ℝ) (hH : buildHamiltonian E c I dets B r v = .ok H)
    (ord : Mode c.nsites → Nat) (ho : Function.Injective ord) (F : Matrix (Fin H.dim) (Fin H.dim) ℝ)
    (hF : ∀ i j (hi : i.1 < dets.length) (hj : j.1 < dets.length),
      F i j = fermiEl ord I (fun s => gridPos (nbh * nb) s) B (conf c dets[i.1]) (conf c dets[j.1])) :
    (F ^ 4).trace < (H.toMatrix ^ 4).trace ∧ H.toMatrix.charpoly ≠ F.charpoly := by
  have el := C31_matrix_elements E c nbh nbv nb hc hf hn I B r v dets hb H hH
  obtain ⟨H', a1, hd, _⟩ := buildHamiltonian_spec I (hc.tj E) hf hn hb B r v
  obtain rfl := Except.ok.inj (hH.symm.trans a1)
  have lt : ∀ i : Fin H.dim, i.1 < dets.length := fun i => lt_of_lt_of_eq i.2 hd
  have walk : ∀ i j k l : Fin H.dim, F i j * F j k * (F k l * F l i) =
      fermiEl siteOrder I (fun s => gridPos (nbh * nb) s) B (conf c (dets[i.1]'(lt i))) (conf c (dets[j.1]'(lt j))) *
      fermiEl siteOrder I (fun s => gridPos (nbh * nb) s) B (conf c (dets[j.1]'(lt j))) (conf c (dets[k.1]'(lt k))) *
      (fermiEl siteOrder I (fun s => gridPos (nbh * nb) s) B (conf c (dets[k.1]'(lt k))) (conf c (dets[l.1]'(lt l))) *
      fermiEl siteOrder I (fun s => gridPos (nbh * nb) s) B (conf c (dets[l.1]'(lt l))) (conf c (dets[i.1]'(lt i)))) := by
    intro i j k l
    rw [hF i j (lt i) (lt j), hF j k (lt j) (lt k), hF k l (lt k) (lt l), hF l i (lt l) (lt i), fermi_order _ _ _ ho, fermi_order _ _ _ ho,
      fermi_order _ _ _ ho, fermi_order _ _ _ ho]
    have q1 := orderSign_sq (K := ℝ) ord siteOrder (fock (conf c (dets[i.1]'(lt i))))
    have q2 := orderSign_sq (K := ℝ) ord siteOrder (fock (conf c (dets[j.1]'(lt j))))
    have q3 := orderSign_sq (K := ℝ) ord siteOrder (fock (conf c (dets[k.1]'(lt k))))
    have q4 := orderSign_sq (K := ℝ) ord siteOrder (fock (conf c (dets[l.1]'(lt l))))
    generalize orderSign ℝ ord siteOrder (fock (conf c (dets[i.1]'(lt i)))) = o1 at *
    generalize orderSign ℝ ord siteOrder (fock (conf c (dets[j.1]'(lt j)))) = o2 at *
    generalize orderSign ℝ ord siteOrder (fock (conf c (dets[k.1]'(lt k)))) = o3 at *
    generalize orderSign ℝ ord siteOrder (fock (conf c (dets[l.1]'(lt l)))) = o4 at *
    generalize fermiEl siteOrder I (fun s => gridPos (nbh * nb) s) B (conf c (dets[i.1]'(lt i))) (conf c (dets[j.1]'(lt j))) = x1
    generalize fermiEl siteOrder I (fun s => gridPos (nbh * nb) s) B (conf c (dets[j.1]'(lt j))) (conf c (dets[k.1]'(lt k))) = x2
    generalize fermiEl siteOrder I (fun s => gridPos (nbh * nb) s) B (conf c (dets[k.1]'(lt k))) (conf c (dets[l.1]'(lt l))) = x3
    generalize fermiEl siteOrder I (fun s => gridPos (nbh * nb) s) B (conf c (dets[l.1]'(lt l))) (conf c (dets[i.1]'(lt i))) = x4
    calc _ = (o1 * o1) * (o2 * o2) * (o3 * o3) * (o4 * o4) * (x1 * x2 * (x3 * x4)) := by ring
      _ = x1 * x2 * (x3 * x4) := by rw [q1, q2, q3, q4]; ring
  have hAe : ∀ i j : Fin H.dim, H.toMatrix i j = hamEl I (fun s => gridPos (nbh * nb) s) B (conf c (dets[i.1]'(lt i))) (conf c (dets[j.1]'(lt j))) :=
    fun i j => el i j (lt i) (lt j)
  have hlt : (F ^ 4).trace < (H.toMatrix ^ 4).trace := by
    obtain ⟨i1, i2, i3, i4, h1, h2, h3, h4, j1, j2, j3, j4, f, g, hj⟩ := sector_cycle hc hn hW hV hh hs hb
    obtain ⟨f1, f2, f3, f4⟩ := f I B
    obtain ⟨g1, g2, g3, g4⟩ := g I B hbt
    rw [if_pos hbt] at f1 f2 f3 f4
    refine trace_lt (fun i j k l => ?_) ⟨i1, lt_of_lt_of_eq h1 hd.symm⟩ ⟨i2, lt_of_lt_of_eq h2 hd.symm⟩ ⟨i3, lt_of_lt_of_eq h3 hd.symm⟩
      ⟨i4, lt_of_lt_of_eq h4 hd.symm⟩ ?_
    · rw [walk, hAe, hAe, hAe, hAe]
      exact walk_le hB hN _ _ _ _
    · rw [walk, hAe, hAe, hAe, hAe, f1, f2, f3, f4, g1, g2, g3, g4]
      have p1 : 0 < I.t ^ 4 := by positivity
      have e : I.t * j1 * (I.t * j2) * (I.t * j3 * (I.t * j4)) = - I.t ^ 4 := by linear_combination (I.t ^ 4) * hj
      rw [e]
      have e2 : I.t * I.t * (I.t * I.t) = I.t ^ 4 := by ring
      rw [e2]
      linarith
  refine ⟨hlt, fun h => ?_⟩
  have sA : H.toMatrix.IsSymm := by
    ext i j
    rw [transpose_apply, hAe, hAe, hamEl_symm]
  have sF : F.IsSymm := by
    ext i j
    rw [transpose_apply, hF _ _ (lt j) (lt i), hF _ _ (lt i) (lt j), fermi_order _ _ _ ho, fermi_order _ _ _ ho, fermi_symm hB hN]
    ring
  exact absurd (trace_of_charpoly sA sF h 4) hlt.ne'

/-! ### The lowest energy -/

section
variable {n : Nat} {I : Interactions ℝ} {pos : Fin n → Pt} {B : BoolInteractions}

theorem abs_ite_sum2 {α : Type} [Fintype α] (p : α → α → Prop) [∀ a b, Decidable (p a b)] (f g : α → α → ℝ) (h : ∀ a b, p a b → |f a b| ≤ - g a b) :
    |∑ a, ∑ b, if p a b then f a b else 0| ≤ - ∑ a, ∑ b, if p a b then g a b else 0 := by
  rw [← sum_neg_distrib]
  refine (abs_sum_le_sum_abs _ _).trans (sum_le_sum fun a _ => ?_)
  rw [← sum_neg_distrib]
  refine (abs_sum_le_sum_abs _ _).trans (sum_le_sum fun b _ => ?_)
  by_cases k : p a b
  · rw [if_pos k, if_pos k]
    exact h a b k
  · rw [if_neg k, if_neg k]
    simp

theorem abs_jump (σ : Conf n) (a b : Fin n) : |jumpSign ℝ σ a b| = 1 := by
  rcases one_or_neg (jumpSign_sq ℝ σ a b) with h | h <;> rw [h] <;> norm_num

/-- The elements of fermions are not larger. -/
theorem fermi_abs (hB : B.bSD = false) (hJ : B.bij = true → I.J ≤ 0 ∧ I.Jhpar ≤ 0 ∧ I.Jhper ≤ 0)
    (hN : B.btN = true → I.tNNN ≤ 0 ∧ I.tnNNN ≤ 0) {σ τ : Conf n} (hne : τ ≠ σ) :
    |fermiEl siteOrder I pos B σ τ| ≤ - hamEl (lowT I) pos B σ τ := by
  obtain ⟨l1, l2, l3, l4, l5, l6, l7⟩ := lowT_same I
  have lt : |I.t| ≤ - (lowT I).t := by
    unfold lowT
    split_ifs with h
    · show |I.t| ≤ - - I.t
      rw [neg_neg, abs_of_pos h]
    · rw [abs_of_nonpos (not_lt.1 h)]
  have t1 : |(if B.bt then hopF I pos σ τ else 0)| ≤ - (if B.bt then hopEl (lowT I) pos σ τ else 0) := by
    split_ifs
    · refine abs_ite_sum2 _ _ _ ?_
      rintro a b _
      rw [abs_mul, abs_jump, mul_one]
      exact lt
    · simp
  have t2 : (if B.bz then staticEl I pos σ τ else 0) = 0 := by
    unfold staticEl
    rw [if_neg hne, ite_self]
  have t2' : (if B.bz then staticEl (lowT I) pos σ τ else 0) = 0 := by
    unfold staticEl
    rw [if_neg hne, ite_self]
  have t3 : |(if B.bij then flipEl I pos σ τ else 0)| ≤ - (if B.bij then flipEl (lowT I) pos σ τ else 0) := by
    split_ifs with h
    · refine abs_ite_sum2 _ _ _ ?_
      rintro a b _
      obtain ⟨j1, j2, j3⟩ := hJ h
      have e : Jeff (lowT I) pos σ a b = Jeff I pos σ a b := by
        unfold Jeff
        rw [l1, l2, l3]
      rw [e]
      have e2 : Jeff I pos σ a b ≤ 0 := by
        unfold Jeff
        split_ifs <;> linarith
      rw [abs_of_nonpos (by linarith)]
    · simp
  have t4 : (if B.bSD then sdEl (lowT I) pos σ τ else 0) = 0 := by rw [hB]; rfl
  have t5 : |(if B.btN then nextF I pos σ τ else 0)| ≤ - (if B.btN then nextEl (lowT I) pos σ τ else 0) := by
    split_ifs with h
    · refine abs_ite_sum2 _ _ _ ?_
      rintro a b _
      obtain ⟨j1, j2⟩ := hN h
      rw [abs_mul, abs_jump, mul_one, l6, l7]
      split_ifs
      · rw [abs_of_nonpos j2]
      · rw [abs_of_nonpos j1]
    · simp
  have t6 : (if B.bV then repEl I pos σ τ else 0) = 0 := by
    unfold repEl
    rw [if_neg hne, ite_self]
  have t6' : (if B.bV then repEl (lowT I) pos σ τ else 0) = 0 := by
    unfold repEl
    rw [if_neg hne, ite_self]
  rw [fermi_sites]
  unfold hamEl
  rw [t2, t2', t4, t6, t6', add_zero, add_zero, add_zero, add_zero, add_zero]
  have k1 := abs_add_le ((if B.bt then hopF I pos σ τ else 0) + (if B.bij then flipEl I pos σ τ else 0)) (if B.btN then nextF I pos σ τ else 0)
  have k2 := abs_add_le (if B.bt then hopF I pos σ τ else 0) (if B.bij then flipEl I pos σ τ else 0)
  linarith

end

/-- C127. In the sectors of `C127_fails`, without antiferromagnetic spin flips, the lowest energy is strictly below every energy of fermions with
the same couplings. -/
theorem C127_energy_too_low (E : Env) (c : Config) (nbh nbv nb : Nat) (hc : RectConf c nbh nbv nb) (hf : c.Full) (hn : c.nholes + c.nbeta ≤ c.nsites)
    (hW : 2 ≤ nbh * nb) (hV : 2 ≤ nbv * nb) (hh : 2 ≤ c.nholes) (hs : 2 ≤ c.nbeta ∨ c.nholes + c.nbeta + 2 ≤ c.nsites)
    (I : Interactions ℝ) (B : BoolInteractions) (hbt : B.bt = true) (ht : I.t ≠ 0) (hB : B.bSD = false)
    (hJ : B.bij = true → I.J ≤ 0 ∧ I.Jhpar ≤ 0 ∧ I.Jhper ≤ 0) (hN : B.btN = true → I.tNNN ≤ 0 ∧ I.tnNNN ≤ 0) (r : List Nat) (v : Bool)
    (dets : List (List Nat)) (hb : constructBasis c = .ok dets) (H : SpMat ℝ) (hH : buildHamiltonian E c I dets B r v = .ok H)
    (ord : Mode c.nsites → Nat) (ho : Function.Injective ord) (F : Matrix (Fin H.dim) (Fin H.dim) ℝ)
    (hF : ∀ i j (hi : i.1 < dets.length) (hj : j.1 < dets.length),
      F i j = fermiEl ord I (fun s => gridPos (nbh * nb) s) B (conf c dets[i.1]) (conf c dets[j.1]))
    (e : ℝ) (he : IsLeast {μ | Module.End.HasEigenvalue (Matrix.toLin' H.toMatrix) μ} e)
    (f : ℝ) (hfe : Module.End.HasEigenvalue (Matrix.toLin' F) f) : e < f := by
  have el := C31_matrix_elements E c nbh nbv nb hc hf hn I B r v dets hb H hH
  obtain ⟨hd, hr⟩ := hole_signs hc hf hn (by omega) hW hV hbt ht hJ (fun h => by rw [hB] at h; exact absurd h (by simp)) hN hb hH
  obtain ⟨p1, p2, p3, p4⟩ := hr _ (fun i => rfl)
  obtain ⟨x, hx⟩ := hfe.exists_hasEigenvector
  have hxe : F *ᵥ x = f • x := by
    have := hx.apply_eq_smul
    rwa [toLin'_apply] at this
  have lt : ∀ i : Fin H.dim, i.1 < dets.length := fun i => lt_of_lt_of_eq i.2 hd
  have hAe : ∀ i j : Fin H.dim, H.toMatrix i j = hamEl I (fun s => gridPos (nbh * nb) s) B (conf c (dets[i.1]'(lt i))) (conf c (dets[j.1]'(lt j))) :=
    fun i j => el i j (lt i) (lt j)
  have hdiag : ∀ i, F i i = H.toMatrix i i := by
    intro i
    rw [hF i i (lt i) (lt i), hAe, fermi_order _ _ _ ho, orderSign_sq, one_mul, fermi_sites]
    have same : ∀ a b : Fin c.nsites, ∀ P : Prop, ¬ (conf c (dets[i.1]'(lt i)) a = .hole ∧ conf c (dets[i.1]'(lt i)) b ≠ .hole ∧ P ∧
        conf c (dets[i.1]'(lt i)) = exch (conf c (dets[i.1]'(lt i))) a b) := by
      rintro a b P ⟨h1, h2, _, h4⟩
      have := congrFun h4 a
      rw [exch_left, h1] at this
      exact h2 this.symm
    have t1 : hopF I (fun s => gridPos (nbh * nb) s) (conf c (dets[i.1]'(lt i))) (conf c (dets[i.1]'(lt i))) = 0 :=
      sum_eq_zero fun a _ => sum_eq_zero fun b _ => if_neg (same a b _)
    have t2 : hopEl I (fun s => gridPos (nbh * nb) s) (conf c (dets[i.1]'(lt i))) (conf c (dets[i.1]'(lt i))) = 0 :=
      sum_eq_zero fun a _ => sum_eq_zero fun b _ => if_neg (same a b _)
    have t3 : nextF I (fun s => gridPos (nbh * nb) s) (conf c (dets[i.1]'(lt i))) (conf c (dets[i.1]'(lt i))) = 0 :=
      sum_eq_zero fun a _ => sum_eq_zero fun b _ => if_neg (same a b _)
    have t4 : nextEl I (fun s => gridPos (nbh * nb) s) (conf c (dets[i.1]'(lt i))) (conf c (dets[i.1]'(lt i))) = 0 :=
      sum_eq_zero fun a _ => sum_eq_zero fun b _ => if_neg (same a b _)
    unfold hamEl
    rw [t1, t2, t3, t4, hB]
    simp
  have habs2 : ∀ i j, i ≠ j → |F i j| ≤ - (ferroSign I.t (fun t : Fin c.nsites => gridPos (nbh * nb) t) (conf c (dets[i.1]'(lt i))) *
      ferroSign I.t (fun t : Fin c.nsites => gridPos (nbh * nb) t) (conf c (dets[j.1]'(lt j))) * H.toMatrix i j) := by
    intro i j hij
    rw [hF i j (lt i) (lt j), hAe, ferro_ham, fermi_order _ _ _ ho, abs_mul, abs_mul]
    have habs : ∀ S, |orderSign ℝ ord (siteOrder (n := c.nsites)) S| = 1 := by
      intro S
      rcases one_or_neg (orderSign_sq (K := ℝ) ord siteOrder S) with h | h <;> rw [h] <;> norm_num
    rw [habs, habs, one_mul, one_mul]
    refine fermi_abs hB hJ hN fun h => hij ?_
    exact Fin.ext (conf_inj hb (lt i) (lt j) h.symm)
  rcases compare_lowest (F := F) p1 _ p2 p3 p4 (least_min p1 he) hdiag habs2 x hxe hx.2 with h | ⟨g, hg, hgF⟩
  · exact h
  · exfalso
    refine C127_fails E c nbh nbv nb hc hf hn hW hV hh hs I B hbt ht r v dets hb H hH ord ho I B
      ⟨fun i => if h : i < H.dim then g ⟨i, h⟩ else 1, fun i => ?_, fun i j hi hj => ?_⟩
    · beta_reduce
      by_cases h : i < H.dim
      · rw [dif_pos h]
        intro h0
        have := hg ⟨i, h⟩
        rw [h0] at this
        norm_num at this
      · rw [dif_neg h]
        exact one_ne_zero
    · have ki : i < H.dim := lt_of_lt_of_eq hi hd.symm
      have kj : j < H.dim := lt_of_lt_of_eq hj hd.symm
      beta_reduce
      rw [dif_pos ki, dif_pos kj, ← hF ⟨i, ki⟩ ⟨j, kj⟩ hi hj]
      have e1 : H.entry i j = H.toMatrix ⟨i, ki⟩ ⟨j, kj⟩ := rfl
      have e2 : (g ⟨j, kj⟩)⁻¹ = g ⟨j, kj⟩ := inv_eq_of_mul_eq_one_left (hg _)
      rw [e1, hgF, e2]
      ring

/-! ### Concrete cases -/

/-- Two modes. -/
example : annih ℚ (fun b : Bool => if b then 1 else 0) true * annih ℚ (fun b : Bool => if b then 1 else 0) false +
    annih ℚ (fun b : Bool => if b then 1 else 0) false * annih ℚ (fun b : Bool => if b then 1 else 0) true = 0 :=
  (C127_anticommute (K := ℚ) (fun b : Bool => if b then 1 else 0) (by intro a b; cases a <;> cases b <;> simp) true false).1

/-- 3 x 2 sites with one hole and two down spins. -/
example (I : Interactions ℚ) : ∃ dets H, constructBasis (rectConf 3 2 1 1 2) = .ok dets ∧
    buildHamiltonian exEnv (rectConf 3 2 1 1 2) I dets ⟨true, true, true, false, false, false⟩ = .ok H ∧ H.dim = 60 ∧
    ∃ ε : Conf (rectConf 3 2 1 1 2).nsites → ℚ, (∀ σ, ε σ = 1 ∨ ε σ = -1) ∧ ∀ i j (hi : i < dets.length) (hj : j < dets.length),
      H.entry i j = ε (conf (rectConf 3 2 1 1 2) dets[i]) * ε (conf (rectConf 3 2 1 1 2) dets[j]) *
        fermiEl siteOrder I (fun s => gridPos (3 * 1) s) ⟨true, true, true, false, false, false⟩ (conf (rectConf 3 2 1 1 2) dets[i]) (conf (rectConf 3 2 1 1 2) dets[j]) := by
  have hc : RectConf (rectConf 3 2 1 1 2) 3 2 1 := rectConf_ok _ _ _ _ _ (by decide) (by decide) (by decide)
  have hf : Config.Full (rectConf 3 2 1 1 2) := by unfold Config.Full; decide +kernel
  have hn : (rectConf 3 2 1 1 2).nholes + (rectConf 3 2 1 1 2).nbeta ≤ (rectConf 3 2 1 1 2).nsites := by decide +kernel
  obtain ⟨d, H, a1, a2, a4, a3, _⟩ := C30_no_failure exEnv _ 3 2 1 hc hf hn I ⟨true, true, true, false, false, false⟩ [] false
  refine ⟨d, H, a1, a2, ?_, C127_one_hole_same_sign_partial exEnv _ 3 2 1 hc hf hn (by decide) I _ rfl rfl [] false d a1 H a2 siteOrder siteOrder_inj⟩
  rw [a4, C02_dimension _ _ a1]
  decide +kernel

/-- The same with the hopping to second neighbours: the electrons hop with the opposite sign. -/
example (I : Interactions ℚ) : ∃ dets H, constructBasis (rectConf 3 2 1 1 2) = .ok dets ∧
    buildHamiltonian exEnv (rectConf 3 2 1 1 2) I dets ⟨true, true, true, false, true, true⟩ = .ok H ∧
    ∃ ε : Conf (rectConf 3 2 1 1 2).nsites → ℚ, (∀ σ, ε σ = 1 ∨ ε σ = -1) ∧ ∀ i j (hi : i < dets.length) (hj : j < dets.length),
      H.entry i j = ε (conf (rectConf 3 2 1 1 2) dets[i]) * ε (conf (rectConf 3 2 1 1 2) dets[j]) *
        fermiEl siteOrder { I with t := - I.t, tNNN := - I.tNNN, tnNNN := - I.tnNNN } (fun s => gridPos (3 * 1) s) ⟨true, true, true, false, true, true⟩
          (conf (rectConf 3 2 1 1 2) dets[i]) (conf (rectConf 3 2 1 1 2) dets[j]) := by
  have hc : RectConf (rectConf 3 2 1 1 2) 3 2 1 := rectConf_ok _ _ _ _ _ (by decide) (by decide) (by decide)
  have hf : Config.Full (rectConf 3 2 1 1 2) := by unfold Config.Full; decide +kernel
  have hn : (rectConf 3 2 1 1 2).nholes + (rectConf 3 2 1 1 2).nbeta ≤ (rectConf 3 2 1 1 2).nsites := by decide +kernel
  obtain ⟨d, H, a1, a2, _⟩ := C30_no_failure exEnv _ 3 2 1 hc hf hn I ⟨true, true, true, false, true, true⟩ [] false
  exact ⟨d, H, a1, a2, C127_one_hole_partial exEnv _ 3 2 1 hc hf hn (by decide) I _ rfl [] false d a1 H a2 siteOrder siteOrder_inj⟩

/-- A row of five sites with two holes and one down spin. -/
example (I : Interactions ℚ) : ∃ dets H, constructBasis (rectConf 5 1 1 2 1) = .ok dets ∧
    buildHamiltonian exEnv (rectConf 5 1 1 2 1) I dets ⟨true, true, true, false, false, true⟩ = .ok H ∧
    ∃ ε : Conf (rectConf 5 1 1 2 1).nsites → ℚ, (∀ σ, ε σ = 1 ∨ ε σ = -1) ∧ ∀ i j (hi : i < dets.length) (hj : j < dets.length),
      H.entry i j = ε (conf (rectConf 5 1 1 2 1) dets[i]) * ε (conf (rectConf 5 1 1 2 1) dets[j]) *
        fermiEl siteOrder I (fun s => gridPos (5 * 1) s) ⟨true, true, true, false, false, true⟩ (conf (rectConf 5 1 1 2 1) dets[i]) (conf (rectConf 5 1 1 2 1) dets[j]) := by
  have hc : RectConf (rectConf 5 1 1 2 1) 5 1 1 := rectConf_ok _ _ _ _ _ (by decide) (by decide) (by decide)
  have hf : Config.Full (rectConf 5 1 1 2 1) := by unfold Config.Full; decide +kernel
  have hn : (rectConf 5 1 1 2 1).nholes + (rectConf 5 1 1 2 1).nbeta ≤ (rectConf 5 1 1 2 1).nsites := by decide +kernel
  obtain ⟨d, H, a1, a2, _⟩ := C30_no_failure exEnv _ 5 1 1 hc hf hn I ⟨true, true, true, false, false, true⟩ [] false
  exact ⟨d, H, a1, a2, C127_row_partial exEnv _ 5 1 1 hc hf hn (.inr rfl) I _ rfl rfl [] false d a1 H a2 siteOrder siteOrder_inj⟩

/-- 2 x 2 sites with two holes and two up spins: the energies are not those of fermions, whatever the exchange; with the hopping alone the lowest
one is below all of them. -/
example (I : Interactions ℝ) (ht : I.t = 1) : ∃ dets H, constructBasis (rectConf 2 2 1 2 0) = .ok dets ∧
    buildHamiltonian exEnv (rectConf 2 2 1 2 0) I dets ⟨true, true, true, false, false, false⟩ = .ok H ∧ H.dim = 6 ∧
    ∃ F : Matrix (Fin H.dim) (Fin H.dim) ℝ, (∀ i j (hi : i.1 < dets.length) (hj : j.1 < dets.length),
      F i j = fermiEl siteOrder I (fun s => gridPos (2 * 1) s) ⟨true, true, true, false, false, false⟩ (conf (rectConf 2 2 1 2 0) dets[i.1]) (conf (rectConf 2 2 1 2 0) dets[j.1])) ∧
      H.toMatrix.charpoly ≠ F.charpoly ∧
      (I.J ≤ 0 ∧ I.Jhpar ≤ 0 ∧ I.Jhper ≤ 0 → ∃ e f, IsLeast {μ | Module.End.HasEigenvalue (Matrix.toLin' H.toMatrix) μ} e ∧
        IsLeast {μ | Module.End.HasEigenvalue (Matrix.toLin' F) μ} f ∧ e < f) := by
  have hc : RectConf (rectConf 2 2 1 2 0) 2 2 1 := rectConf_ok _ _ _ _ _ (by decide) (by decide) (by decide)
  have hf : Config.Full (rectConf 2 2 1 2 0) := by unfold Config.Full; decide +kernel
  have hn : (rectConf 2 2 1 2 0).nholes + (rectConf 2 2 1 2 0).nbeta ≤ (rectConf 2 2 1 2 0).nsites := by decide +kernel
  have hs : 2 ≤ (rectConf 2 2 1 2 0).nbeta ∨ (rectConf 2 2 1 2 0).nholes + (rectConf 2 2 1 2 0).nbeta + 2 ≤ (rectConf 2 2 1 2 0).nsites := by
    decide +kernel
  have ht : I.t ≠ 0 := by rw [ht]; norm_num
  obtain ⟨d, H, a1, a2, a4, a3, _⟩ := C30_no_failure exEnv _ 2 2 1 hc hf hn I ⟨true, true, true, false, false, false⟩ [] false
  have g1 : H.dim = 6 := by
    rw [a4, C02_dimension _ _ a1]
    decide +kernel
  have lt : ∀ i : Fin H.dim, i.1 < d.length := fun i => lt_of_lt_of_eq i.2 a4
  let F : Matrix (Fin H.dim) (Fin H.dim) ℝ := fun i j => fermiEl siteOrder I (fun s => gridPos (2 * 1) s) ⟨true, true, true, false, false, false⟩
    (conf (rectConf 2 2 1 2 0) (d[i.1]'(lt i))) (conf (rectConf 2 2 1 2 0) (d[j.1]'(lt j)))
  have hF : ∀ i j (hi : i.1 < d.length) (hj : j.1 < d.length),
      F i j = fermiEl siteOrder I (fun s => gridPos (2 * 1) s) ⟨true, true, true, false, false, false⟩ (conf (rectConf 2 2 1 2 0) d[i.1]) (conf (rectConf 2 2 1 2 0) d[j.1]) :=
    fun _ _ _ _ => rfl
  have sF : F.IsSymm := by
    ext i j
    exact fermi_symm rfl rfl _ _
  refine ⟨d, H, a1, a2, g1, F, hF, (C127_energies_differ exEnv _ 2 2 1 hc hf hn (by decide) (by decide) (by decide) hs I _ rfl ht rfl rfl [] false d a1 H a2
    siteOrder siteOrder_inj F hF).2, fun hJ => ?_⟩
  have sH : H.toMatrix.IsSymm := by
    ext i j
    exact C32_symmetric exEnv _ 2 2 1 hc hf hn I _ [] false d a1 H a2 j i
  obtain ⟨e, he⟩ := exists_least sH (by omega)
  obtain ⟨f, hfe⟩ := exists_least sF (by omega)
  exact ⟨e, f, he, hfe, C127_energy_too_low exEnv _ 2 2 1 hc hf hn (by decide) (by decide) (by decide) hs I _ rfl ht rfl (fun _ => hJ) (by simp) [] false d a1 H a2
    siteOrder siteOrder_inj F hF e he f hfe.1⟩

/-- The same sector: no signs or lengths of the basis vectors help. -/
example (I : Interactions ℝ) (ht : I.t = 1) : ∃ dets H, constructBasis (rectConf 2 2 1 2 0) = .ok dets ∧
    buildHamiltonian exEnv (rectConf 2 2 1 2 0) I dets ⟨true, true, true, true, true, true⟩ = .ok H ∧
    ¬ ∃ ε : Nat → ℝ, (∀ i, ε i ≠ 0) ∧ ∀ i j (hi : i < dets.length) (hj : j < dets.length),
      H.entry i j = ε i * fermiEl siteOrder I (fun s => gridPos (2 * 1) s) ⟨true, true, true, true, true, true⟩ (conf (rectConf 2 2 1 2 0) dets[i]) (conf (rectConf 2 2 1 2 0) dets[j]) *
        (ε j)⁻¹ := by
  have hc : RectConf (rectConf 2 2 1 2 0) 2 2 1 := rectConf_ok _ _ _ _ _ (by decide) (by decide) (by decide)
  have hf : Config.Full (rectConf 2 2 1 2 0) := by unfold Config.Full; decide +kernel
  have hn : (rectConf 2 2 1 2 0).nholes + (rectConf 2 2 1 2 0).nbeta ≤ (rectConf 2 2 1 2 0).nsites := by decide +kernel
  have hs : 2 ≤ (rectConf 2 2 1 2 0).nbeta ∨ (rectConf 2 2 1 2 0).nholes + (rectConf 2 2 1 2 0).nbeta + 2 ≤ (rectConf 2 2 1 2 0).nsites := by
    decide +kernel
  obtain ⟨d, H, a1, a2, _⟩ := C30_no_failure exEnv _ 2 2 1 hc hf hn I ⟨true, true, true, true, true, true⟩ [] false
  exact ⟨d, H, a1, a2, C127_fails exEnv _ 2 2 1 hc hf hn (by decide) (by decide) (by decide) hs I _ rfl (by rw [ht]; norm_num) [] false d a1 H a2 siteOrder
    siteOrder_inj I _⟩

end TJ
