/-
Properties C58-C60 and C63: the two embedding loops.
-/
import Verif.Lemmas.EmbedNeel
import Verif.Props.Lattice
import Verif.Props.Observables
import Verif.Props.Interactions
import Mathlib.Data.Real.Sqrt

namespace TJ

open Finset

/-! ### C58 -/

section
variable {K : Type} [Field K] [LinearOrder K] [IsStrictOrderedRing K]

/-- C58. The peripheral spins of `embedding_neel` are down exactly on the sites of odd `x + y`: as a determinant (a permutation of the
peripheral sites read with the counts of `configuration_rest`), and as initial probabilities. -/
theorem C58_pattern (S : SetSem) (nbh nbv nb : Nat) (h1 : 1 ≤ nbh) (h2 : 1 ≤ nbv) (h3 : 1 ≤ nb) :
    ∃ cR p, configRest nbh nbv nb = .ok cR ∧ cR.nsites = 2 * (nbh + nbv) * nb ∧ cR.nholes = 0 ∧
      ValidDet cR.nsites (detNeel S nbh nbv nb) ∧
      cnt cR.nsites (occ cR.nholes cR.nbeta (detNeel S nbh nbv nb)) .down = cR.nbeta ∧
      (∀ r < cR.nsites, occ cR.nholes cR.nbeta (detNeel S nbh nbv nb) r =
        if oddSite (periPos (nbh * nb) (nbv * nb) (nbh * nb * (nbv * nb) + r)) then .down else .up) ∧
      initialProb (K := K) S nbh nbv nb = .ok p ∧
      IsLaw p cR.nsites (fun o r => if o = (if oddSite (periPos (nbh * nb) (nbv * nb) (nbh * nb * (nbv * nb) + r)) then .down else .up)
        then 1 else 0) := by
  obtain ⟨cR, e1, e2, e3, e4, e5⟩ := configRest_ok nbh nbv nb h1 h2 h3
  obtain ⟨P, p1, p2, p3⟩ := initialProb_ok (K := K) S nbh nbv nb h1 h2 h3
  have hv : ValidDet cR.nsites (detNeel S nbh nbv nb) := by rw [e3]; exact valid_detNeel S nbh nbv nb
  have hn : cR.nholes + cR.nbeta ≤ cR.nsites := by
    rw [e3, e4, e5]
    have := length_betaNeel_le nbh nbv nb
    omega
  refine ⟨cR, _, e1, e3, e4, hv, cnt_occ_down hv hn, ?_, p1, ?_⟩
  · intro r hr
    rw [e4, e5]
    exact occ_detNeel S nbh nbv nb r (by rw [← e3]; exact hr)
  · intro o
    obtain ⟨l, l1, l2, l3⟩ := isLaw_three (P .down) (P .hole) (P .up) cR.nsites (by rw [p2, e3]) (by rw [p2, e3]) (by rw [p2, e3]) o
    refine ⟨l, l1, l2, fun r hr => ?_⟩
    rw [l3 r hr]
    rw [e3] at hr
    cases o <;> simp only [p3 _ r hr] <;> split_ifs <;> simp_all

/-- C58. Bonded peripheral sites carry opposite spins, both for the bonds of the peripheral lattice alone and for those of the block with its
border. -/
theorem C58_antiferromagnetic (S : SetSem) (nbh nbv nb : Nat) (h1 : 1 ≤ nbh) (h2 : 1 ≤ nbv) (h3 : 1 ≤ nb) (cR : Config) (emb : NdMat)
    (hR : configRest nbh nbv nb = .ok cR) (he : buildBondMatrixNeelEmbedding nbh nbv nb = .ok emb) (r s : Nat) (hr : r < cR.nsites)
    (hs : s < cR.nsites)
    (hb : cR.bond.e r s = 1 ∨ emb.e (nbh * nbv * nb ^ 2 + r) (nbh * nbv * nb ^ 2 + s) = 1) :
    ({occ cR.nholes cR.nbeta (detNeel S nbh nbv nb) r, occ cR.nholes cR.nbeta (detNeel S nbh nbv nb) s} : Finset Occ) =
      {.down, .up} := by
  have hW : 1 ≤ nbh * nb := Nat.mul_pos h1 h3
  have hH : 1 ≤ nbv * nb := Nat.mul_pos h2 h3
  obtain ⟨cR', e1, e2, e3, e4, e5⟩ := configRest_ok nbh nbv nb h1 h2 h3
  obtain rfl := Except.ok.inj (hR.symm.trans e1)
  obtain ⟨emb', g1, g2, g3, g4⟩ := neel_eq nbh nbv nb _ _ rfl rfl hW hH
  obtain rfl := Except.ok.inj (he.symm.trans g1)
  obtain ⟨R, r1, r2, r3, r4⟩ := buildOuter_eq nbh nbv nb _ _ rfl rfl hW hH
  obtain hRb := Except.ok.inj (e2.symm.trans r1)
  rw [e3] at hr hs
  have hnear : Near (periPos (nbh * nb) (nbv * nb) (nbh * nb * (nbv * nb) + r)) (periPos (nbh * nb) (nbv * nb) (nbh * nb * (nbv * nb) + s)) := by
    have hr' := hr
    have hs' := hs
    rw [nRest_eq] at hr' hs'
    rcases hb with hb | hb
    · rw [hRb, r4 r hr' s hs'] at hb
      have hb' : sideOf (nbh * nb) (nbv * nb) r = sideOf (nbh * nb) (nbv * nb) s ∧ (s = r + 1 ∨ r = s + 1) := by
        by_contra h
        rw [if_neg h] at hb
        exact absurd hb (by decide)
      clear hb r4 g4
      generalize nbh * nb = W at *
      generalize nbv * nb = H at *
      have hp : ∀ t, periPos W H (W * H + t) = if t < W then ((t : Int), (-1 : Int)) else if t < W + H then ((W : Int), ((t - W : Nat) : Int))
          else if t < 2 * W + H then ((W : Int) - 1 - (t - (W + H) : Nat), (H : Int)) else (-1, (H : Int) - 1 - (t - (2 * W + H) : Nat)) := by
        intro t
        unfold periPos
        rw [if_neg (by omega)]
        simp only
        rw [show W * H + t - W * H = t by omega]
      rw [hp, hp, near_iff]
      obtain ⟨hb1, hb2⟩ := hb'
      unfold sideOf at hb1
      by_cases k1 : r < W
      · have : s < W := by
          by_contra hc
          rw [if_pos k1, if_neg hc] at hb1
          split_ifs at hb1 <;> omega
        rw [if_pos k1, if_pos this]
        simp only [true_and]
        omega
      · have k1' : ¬ s < W := by
          intro hc
          rw [if_neg k1, if_pos hc] at hb1
          split_ifs at hb1 <;> omega
        rw [if_neg k1, if_neg k1'] at hb1 ⊢
        by_cases k2 : r < W + H
        · have k2' : s < W + H := by
            by_contra hc
            rw [if_pos k2, if_neg hc] at hb1
            split_ifs at hb1 <;> omega
          rw [if_pos k2, if_pos k2']
          simp only [true_and]
          omega
        · have k2' : ¬ s < W + H := by
            intro hc
            rw [if_neg k2, if_pos hc] at hb1
            split_ifs at hb1 <;> omega
          rw [if_neg k2, if_neg k2'] at hb1 ⊢
          by_cases k3 : r < 2 * W + H
          · have k3' : s < 2 * W + H := by
              by_contra hc
              rw [if_pos k3, if_neg hc] at hb1
              omega
            rw [if_pos k3, if_pos k3']
            simp only [true_and]
            omega
          · have k3' : ¬ s < 2 * W + H := by
              intro hc
              rw [if_neg k3, if_pos hc] at hb1
              omega
            rw [if_neg k3, if_neg k3']
            simp only [true_and]
            omega
    · have e : nbh * nbv * nb ^ 2 = nbh * nb * (nbv * nb) := by ring
      rw [e, g4 _ (by omega) _ (by omega)] at hb
      unfold nnInd at hb
      by_contra h
      rw [if_neg h] at hb
      exact absurd hb (by decide)
  have hodd := oddSite_near hnear
  rw [e4, e5, occ_detNeel S nbh nbv nb r hr, occ_detNeel S nbh nbv nb s hs]
  by_cases h : oddSite (periPos (nbh * nb) (nbv * nb) (nbh * nb * (nbv * nb) + r))
  · rw [if_pos h, if_neg (hodd.1 h)]
  · rw [if_neg h, if_pos (by by_contra h'; exact h (hodd.2 h'))]
    exact Finset.pair_comm _ _

/-- 3 x 2 block: ten peripheral sites. -/
example : betaNeel 3 2 1 = [0, 2, 3, 6, 9] := by decide
example : (configRest 3 2 1).map (fun c => (c.nsites, c.nbeta, c.bond.e 0 1, c.bond.e 2 3)) = .ok (10, 5, 1, 0) := by decide
example : initialProb (K := ℚ) SetSem.sorted 2 1 1 = .ok [(-1, [1, 0, 0, 0, 1, 1]), (0, [0, 0, 0, 0, 0, 0]), (1, [0, 1, 1, 1, 0, 0])] := by
  decide +kernel

/-! ### C59 -/

/-- Every peripheral site has exactly one neighbour in the block. -/
theorem border_neighbour {c : Config} (hc : RectConf c c.nbh c.nbv c.nblocs) {emb : NdMat}
    (he : buildBondMatrixNeelEmbedding c.nbh c.nbv c.nblocs = .ok emb) (g : NeelGeom c emb) (r : Nat)
    (hr : r < nRest c.nbh c.nbv c.nblocs) :
    ∃ b < c.nsites, emb.e b (c.nsites + r) = 1 ∧ ∀ b' < c.nsites, emb.e b' (c.nsites + r) = 1 → b' = b := by
  obtain ⟨m, m1, m2, m3, m4, m5, m6⟩ := C15_peripheral c.nbh c.nbv c.nblocs hc.hh hc.hv hc.hb
  obtain rfl := Except.ok.inj (he.symm.trans m1)
  have e : c.nbh * c.nbv * c.nblocs ^ 2 = c.nsites := by rw [g.rows]; ring
  have her := g.erows
  rw [e] at m6
  obtain ⟨b, b1, b2, b3⟩ := m6 (c.nsites + r) (by omega) (by omega)
  refine ⟨b, b1, by rw [m5 _ (by omega) _ (by omega)]; exact b2, fun b' hb' h => b3 b' hb' ?_⟩
  rw [m5 _ (by omega) _ (by omega)]
  exact h

/-- The update with all its data. -/
theorem update_ok (S : SetSem) {c : Config} (hc : RectConf c c.nbh c.nbv c.nblocs) {su : NeelSetup} (hs : neelSetup S c = .ok su)
    {dets : List (List Nat)} (hb : constructBasis c = .ok dets) (hn : c.nholes + c.nbeta ≤ c.nsites) (v : List K)
    (hv : v.length = dets.length) :
    ∃ pL pR f, spinsProbabilities c dets v = .ok pL ∧ updateProb S c su.emb su.frontier pL = .ok pR ∧
      IsLaw pR (nRest c.nbh c.nbv c.nblocs) f ∧
      ∀ r < nRest c.nbh c.nbv c.nblocs, ∀ b : Fin c.nsites, su.emb.e b (c.nsites + r) = 1 →
        ∀ o, f o r = born (amp c dets v) b o.rev := by
  obtain ⟨su', e1, e2, g, e3, _⟩ := neelSetup_ok S hc
  obtain rfl := Except.ok.inj (hs.symm.trans e1)
  obtain ⟨fr, f1, f2, f3⟩ := frontier_spec (S := S) g
  obtain rfl := Except.ok.inj (e3.symm.trans f1)
  obtain ⟨P, p1, _, p2, p3⟩ := spins_eq hb hn v hv
  obtain ⟨A, B, C, u1, u2, u3, u4, u5⟩ := update_loop (S := S) g P p2 su.frontier (fun a ha => ((f3 a).1 ha).1)
    (List.replicate (nRest c.nbh c.nbv c.nblocs) 0) (List.replicate (nRest c.nbh c.nbv c.nblocs) 0)
    (List.replicate (nRest c.nbh c.nbv c.nblocs) 0) (by simp) (by simp) (by simp)
  refine ⟨_, _, fun o r => match o with | .up => A.getD r 0 | .down => B.getD r 0 | .hole => C.getD r 0, p1, u1, ?_, ?_⟩
  · intro o
    cases o
    · exact ⟨C, rfl, u4, fun _ _ => rfl⟩
    · exact ⟨B, rfl, u3, fun _ _ => rfl⟩
    · exact ⟨A, rfl, u2, fun _ _ => rfl⟩
  · intro r hr b hbr o
    obtain ⟨b0, h1, h2, h3⟩ := border_neighbour hc e2 g r hr
    have hmem : (b : Nat) ∈ su.frontier := (f3 b).2 ⟨b.2, r, hr, hbr⟩
    have hu : ∀ b' < c.nsites, su.emb.e b' (c.nsites + r) = 1 → b' = b := fun b' hb' h => (h3 b' hb' h).trans (h3 b b.2 hbr).symm
    obtain ⟨x, y, z⟩ := u5 r hr b b.2 hbr hu
    rw [if_pos hmem] at x y z
    cases o
    · exact z.trans (p3 _ b)
    · exact y.trans (p3 _ b)
    · exact x.trans (p3 _ b)

/-- C59. After an update every peripheral site has the hole probability of its unique neighbour in the block, and its up and down
probabilities exchanged; the three are non-negative and sum to one. -/
theorem C59_border_update (S : SetSem) (c : Config) (hc : RectConf c c.nbh c.nbv c.nblocs) (dets : List (List Nat))
    (hb : constructBasis c = .ok dets) (hn : c.nholes + c.nbeta ≤ c.nsites) (v : List K) (hv : v.length = dets.length)
    (h0 : ∃ x ∈ v, x ≠ 0) :
    ∃ su pL pR f, neelSetup S c = .ok su ∧ spinsProbabilities c dets v = .ok pL ∧
      updateProb S c su.emb su.frontier pL = .ok pR ∧ IsLaw pR (2 * (c.nbh + c.nbv) * c.nblocs) f ∧
      ∀ r < 2 * (c.nbh + c.nbv) * c.nblocs,
        (∃ b : Fin c.nsites, (∀ b' : Fin c.nsites, Near (periPos (c.nbh * c.nblocs) (c.nbv * c.nblocs) b')
            (periPos (c.nbh * c.nblocs) (c.nbv * c.nblocs) (c.nsites + r)) ↔ b' = b) ∧
          f .hole r = born (amp c dets v) b .hole ∧ f .up r = born (amp c dets v) b .down ∧ f .down r = born (amp c dets v) b .up) ∧
        f .hole r + f .down r + f .up r = 1 ∧ ∀ o, 0 ≤ f o r := by
  obtain ⟨su, e1, e2, g, e3, _⟩ := neelSetup_ok S hc
  obtain ⟨pL, pR, f, h1, h2, h3, h4⟩ := update_ok S hc e1 hb hn v hv
  refine ⟨su, pL, pR, f, e1, h1, h2, h3, fun r hr => ?_⟩
  have her := g.erows
  obtain ⟨b, hbn, b1, b2⟩ := border_neighbour hc e2 g r hr
  have hf := h4 r hr ⟨b, hbn⟩ b1
  have hr' : r < nRest c.nbh c.nbv c.nblocs := hr
  refine ⟨⟨⟨b, hbn⟩, fun b' => ?_, hf .hole, hf .up, hf .down⟩, ?_, fun o => ?_⟩
  · have hb' := b'.2
    rw [← g.ebond b' (by omega) (c.nsites + r) (by omega)]
    constructor
    · intro h; exact Fin.ext (b2 b' hb' h)
    · rintro rfl; exact b1
  · rw [hf, hf, hf, add_right_comm]
    exact born_sum _ _ (norm_ne_zero c dets hb hn v hv h0).2
  · rw [hf]; exact born_nonneg _ _ _

/-- C59 over the whole execution: at every iteration of `embedding_neel` the probabilities used for the border are a probability law on
every peripheral site, for every diagonalisation that gives non-zero vectors. -/
theorem C59_every_iteration (E : Env) (sqrt : K → K) (solve : Solver K) (fuel : Nat) (I : Interactions K) (c : Config)
    (hc : RectConf c c.nbh c.nbv c.nblocs) (dets : List (List Nat)) (hsol : solve.Good dets.length) (hb : constructBasis c = .ok dets)
    (hn : c.nholes + c.nbeta ≤ c.nsites) (ham : SpMat K) (hd : ham.dim = dets.length) (eigvects : List (List K)) (tol : K) (maxIter : Nat)
    (r : NeelResult K) (h : embeddingNeel E sqrt solve fuel I c dets ham eigvects tol maxIter = .ok r) :
    ∀ x ∈ r.trace, ∃ f, IsLaw x.prob (2 * (c.nbh + c.nbv) * c.nblocs) f ∧
      ∀ s < 2 * (c.nbh + c.nbv) * c.nblocs, f .hole s + f .down s + f .up s = 1 ∧ ∀ o, 0 ≤ f o s := by
  obtain ⟨su, e1, e2, g, e3, _⟩ := neelSetup_ok E.toSetSem hc
  obtain ⟨P, p1, p2, p3⟩ := initialProb_ok (K := K) E.toSetSem c.nbh c.nbv c.nblocs hc.hh hc.hv hc.hb
  unfold embeddingNeel at h
  obtain ⟨gs, _, h⟩ := bind_eq_ok.1 h
  obtain ⟨su', e1', h⟩ := bind_eq_ok.1 h
  obtain rfl := Except.ok.inj (e1.symm.trans e1')
  obtain ⟨pR, p1', h⟩ := bind_eq_ok.1 h
  obtain rfl := Except.ok.inj (p1.symm.trans p1')
  refine (neelLoop_trace (P := fun x => ∃ f, IsLaw x.prob (2 * (c.nbh + c.nbv) * c.nblocs) f ∧
      ∀ s < 2 * (c.nbh + c.nbv) * c.nblocs, f .hole s + f .down s + f .up s = 1 ∧ ∀ o, 0 ≤ f o s)
    (Q := fun p => ∃ f, IsLaw p (2 * (c.nbh + c.nbv) * c.nblocs) f ∧
      ∀ s < 2 * (c.nbh + c.nbv) * c.nblocs, f .hole s + f .down s + f .up s = 1 ∧ ∀ o, 0 ≤ f o s)
    (fun pR h gs hq _ => hq) ?_ gs maxIter 0 _ gs none [] r ?_ (by simp) rfl (by simp)
    (by rintro a b ⟨p, q, e⟩; exact absurd (congrArg List.length e) (by simp; omega)) h).1
  · intro pR0 k h vals vects gs pL pR hdr hso hgs hpL hpR
    obtain ⟨hv, g2⟩ := hsol k h vals vects gs (by rw [neelDressed_dim hdr, hd]) hso hgs
    obtain ⟨su', pL', pR', f, a1, a2, a3, a4, a5⟩ := C59_border_update E.toSetSem c hc dets hb hn gs hv g2
    obtain rfl := Except.ok.inj (e1.symm.trans a1)
    obtain rfl := Except.ok.inj (hpL.symm.trans a2)
    obtain rfl := Except.ok.inj (hpR.symm.trans a3)
    exact ⟨f, a4, fun s hs => (a5 s hs).2⟩
  · refine ⟨_, isLaw_three (P .down) (P .hole) (P .up) _ (p2 _) (p2 _) (p2 _), fun s hs => ?_⟩
    have hp := fun o => p3 o s hs
    simp only [hp]
    constructor
    · split_ifs <;> simp_all
    · intro o
      cases o <;> simp only <;> split_ifs <;> simp

/-! ### C60 -/

/-- C60 for `embedding_neel`: every matrix that is diagonalised is symmetric, and has the dimension of the block Hamiltonian. -/
theorem C60_neel (E : Env) (sqrt : K → K) (solve : Solver K) (fuel : Nat) (I : Interactions K) (c : Config)
    (dets : List (List Nat)) (ham : SpMat K) (hsym : ∀ i j, ham.entry i j = ham.entry j i) (eigvects : List (List K)) (tol : K)
    (maxIter : Nat) (r : NeelResult K) (h : embeddingNeel E sqrt solve fuel I c dets ham eigvects tol maxIter = .ok r) :
    ∀ x ∈ r.trace, x.ham.dim = ham.dim ∧ ∀ i j, x.ham.entry i j = x.ham.entry j i := by
  unfold embeddingNeel at h
  obtain ⟨gs, _, h⟩ := bind_eq_ok.1 h
  obtain ⟨su, _, h⟩ := bind_eq_ok.1 h
  obtain ⟨pR, _, h⟩ := bind_eq_ok.1 h
  exact (neelLoop_trace (P := fun x => x.ham.dim = ham.dim ∧ x.ham.Sym) (Q := fun _ => True)
    (fun pR h gs _ e => ⟨neelDressed_dim e, neelDressed_sym hsym e⟩) (fun _ _ _ _ _ _ _ _ _ _ _ _ _ => trivial) gs maxIter 0 _ gs none [] r
    trivial (by simp) rfl (by simp)
    (by rintro a b ⟨p, q, e⟩; exact absurd (congrArg List.length e) (by simp; omega)) h).1

/-- C60 for `embedding_blocks`. -/
theorem C60_blocks (E : Env) (sqrt : K → K) (solve : Solver K) (fuel : Nat) (I : Interactions K) (c : Config) (o : BlockOptions K)
    (dets : List (List Nat)) (ham : SpMat K) (hsym : ∀ i j, ham.entry i j = ham.entry j i) (eigvals : List K) (eigvects : List (List K))
    (tol : K) (maxIter : Nat) (r : BlockResult K ⊕ List (BlockStep K))
    (h : embeddingBlocks E sqrt solve fuel I c o dets ham eigvals eigvects tol maxIter = .ok r) :
    (∀ x ∈ r.elim (fun q => q.trace) id, ∀ i j, x.ham.entry i j = x.ham.entry j i) ∧
      ∀ q, r = .inl q → ∀ i j, q.ham.entry i j = q.ham.entry j i := by
  unfold embeddingBlocks at h
  obtain ⟨gs, _, h⟩ := bind_eq_ok.1 h
  obtain ⟨e0, _, h⟩ := bind_eq_ok.1 h
  obtain ⟨su, _, h⟩ := bind_eq_ok.1 h
  obtain ⟨h1, h2, h3, h4⟩ := blockLoop_trace (P := SpMat.Sym) (fun gs en h e => blockDressed_sym hsym e) gs maxIter 0 gs e0 false [] r
    (by simp) rfl (by rintro a b ⟨p, q, e⟩; exact absurd (congrArg List.length e) (by simp; omega)) h
  refine ⟨h1, ?_⟩
  rintro q rfl
  obtain ⟨_, ⟨gs', h5, _⟩, _⟩ := h4 q rfl
  exact h1 ⟨q.ham, gs'⟩ (List.mem_of_getLast? h5)

/-- C60 for all executions, also those that raise: the embedding functions hand only symmetric matrices to the diagonalisation (two
diagonalisations that agree on symmetric matrices cannot be distinguished). -/
theorem C60_only_symmetric (E : Env) (sqrt : K → K) (solve solve' : Solver K)
    (hs : ∀ k M, (∀ i j, M.entry i j = M.entry j i) → solve k M = solve' k M) (fuel : Nat) (I : Interactions K) (c : Config)
    (o : BlockOptions K) (dets : List (List Nat)) (ham : SpMat K) (hsym : ∀ i j, ham.entry i j = ham.entry j i) (eigvals : List K)
    (eigvects : List (List K)) (tol : K) (maxIter : Nat) :
    embeddingNeel E sqrt solve fuel I c dets ham eigvects tol maxIter = embeddingNeel E sqrt solve' fuel I c dets ham eigvects tol maxIter ∧
    embeddingBlocks E sqrt solve fuel I c o dets ham eigvals eigvects tol maxIter =
      embeddingBlocks E sqrt solve' fuel I c o dets ham eigvals eigvects tol maxIter := by
  constructor
  · unfold embeddingNeel
    refine bind_congr_ok fun gs _ => bind_congr_ok fun su _ => bind_congr_ok fun pR _ => ?_
    exact neelLoop_congr (fun pR h e k => hs k h (neelDressed_sym hsym e)) _ _ _ _ _ _
  · unfold embeddingBlocks
    refine bind_congr_ok fun gs _ => bind_congr_ok fun e0 _ => bind_congr_ok fun su _ => ?_
    exact blockLoop_congr (fun gs en h e k => hs k h (blockDressed_sym hsym e)) _ _ _ _ _ _

/-! ### C63 -/

theorem zipWith_sq_sum (v w : List K) (n : Nat) (hv : v.length = n) (hw : w.length = n) :
    vdot (List.zipWith (· - ·) v w) (List.zipWith (· - ·) v w) = sqDist n v w := by
  subst hv
  unfold vdot sqDist
  induction v generalizing w with
  | nil => simp
  | cons a v ih =>
    cases w with
    | nil => simp at hw
    | cons b w =>
      have := ih w (by simpa using hw)
      rw [List.length_cons, Finset.sum_range_succ']
      simp only [List.zipWith_cons_cons, List.sum_cons, List.getD_cons_succ, List.getD_cons_zero] at this ⊢
      rw [this]
      ring

theorem vdot_self (v : List K) : vdot v v = sqDist v.length v [] := by
  unfold vdot sqDist
  induction v with
  | nil => simp
  | cons a v ih =>
    rw [List.length_cons, Finset.sum_range_succ']
    simp only [List.zipWith_cons_cons, List.sum_cons, List.getD_cons_succ, List.getD_cons_zero, List.getD_nil] at ih ⊢
    rw [ih]
    ring

theorem converged_iff (sqrt : K → K) (tol : K) (new old : List K) :
    (converged sqrt tol new old = .ok true ↔ SmallChange sqrt tol new old) ∧
    (converged sqrt tol new old = .ok false ↔ new.length = old.length ∧ ¬ SmallChange sqrt tol new old) := by
  unfold converged SmallChange normList
  by_cases hl : new.length = old.length
  · rw [if_neg (not_not.2 hl), vdot_self old, zipWith_sq_sum new old old.length hl rfl]
    by_cases hz : sqrt (sqDist old.length old []) = 0
    · rw [if_pos hz]; simp [hz, hl]
    · rw [if_neg hz]
      by_cases ht : sqrt (sqDist old.length new old) / sqrt (sqDist old.length old []) < tol
      · simp [ht, hz, hl]
      · simp [ht, hl]
  · rw [if_pos hl]
    simp [hl]

/-- C63, except the last clause. `embedding_blocks` returns results only when the relative change of the ground state in the last
iteration is below the tolerance, and at the first such iteration; there are at most `maxIter` iterations; without convergence
Python's `None` is returned after exactly `maxIter` iterations. Missing: "when max_iter is used up without convergence the caller
still gets the last results", which is false (`C63_no_last_results`). -/
theorem C63_converged_partial (E : Env) (sqrt : K → K) (solve : Solver K) (fuel : Nat) (I : Interactions K) (c : Config) (o : BlockOptions K)
    (dets : List (List Nat)) (ham : SpMat K) (eigvals : List K) (eigvects : List (List K)) (gs0 : List K) (h0 : eigvects[0]? = some gs0)
    (tol : K) (maxIter : Nat) (r : BlockResult K ⊕ List (BlockStep K))
    (h : embeddingBlocks E sqrt solve fuel I c o dets ham eigvals eigvects tol maxIter = .ok r) :
    (∀ q, r = .inl q → 1 ≤ q.trace.length ∧ q.trace.length ≤ maxIter ∧ q.eigvals ≠ [] ∧
      ∃ p old new, gs0 :: q.trace.map (·.gs) = p ++ [old, new] ∧ q.eigvects[0]? = some new ∧ q.trace.getLast? = some ⟨q.ham, new⟩ ∧
        SmallChange sqrt tol new old ∧ ∀ a b, Consec (p ++ [old]) a b → ¬ SmallChange sqrt tol b a) ∧
    (∀ t, r = .inr t → t.length = maxIter ∧ ∀ a b, Consec (gs0 :: t.map (·.gs)) a b → ¬ SmallChange sqrt tol b a) := by
  unfold embeddingBlocks at h
  obtain ⟨gs, hg, h⟩ := bind_eq_ok.1 h
  obtain ⟨e0, _, h⟩ := bind_eq_ok.1 h
  obtain ⟨su, _, h⟩ := bind_eq_ok.1 h
  obtain rfl := Option.some.inj ((pyGet_inv hg).symm.trans h0)
  obtain ⟨h1, h2, h3, h4⟩ := blockLoop_trace (P := fun _ => True) (fun _ _ _ _ => trivial) gs maxIter 0 gs e0 false [] r
    (by simp) rfl (by rintro a b ⟨p, q, e⟩; exact absurd (congrArg List.length e) (by simp; omega)) h
  constructor
  · rintro q rfl
    obtain ⟨a1, ⟨gs', a2, a2'⟩, p, old, new, a3, a4, a5, a6⟩ := h4 q rfl
    have hlen := congrArg List.length a3
    simp only [List.length_cons, List.length_map, List.length_append, List.length_nil] at hlen
    obtain rfl := Option.some.inj (a4.symm.trans a2')
    refine ⟨by omega, by simpa using h2, a1, p, old, new, a3, a4, a2, (converged_iff _ _ _ _).1.1 a5, fun a b hab => ?_⟩
    exact ((converged_iff _ _ _ _).2.1 (a6 a b hab)).2
  · rintro t rfl
    obtain ⟨a1, a2⟩ := h3 t rfl
    exact ⟨by simpa using a1, fun a b hab => ((converged_iff _ _ _ _).2.1 (a2 a b hab)).2⟩

/-- C63: zero iterations raise `NameError` (the final message uses a variable of the loop). -/
theorem C63_no_iteration (E : Env) (sqrt : K → K) (solve : Solver K) (fuel : Nat) (I : Interactions K) (c : Config) (o : BlockOptions K)
    (dets : List (List Nat)) (ham : SpMat K) (eigvals : List K) (eigvects : List (List K)) (tol : K)
    (r : BlockResult K ⊕ List (BlockStep K)) :
    embeddingBlocks E sqrt solve fuel I c o dets ham eigvals eigvects tol 0 ≠ .ok r := by
  intro h
  unfold embeddingBlocks at h
  obtain ⟨gs, hg, h⟩ := bind_eq_ok.1 h
  obtain ⟨e0, _, h⟩ := bind_eq_ok.1 h
  obtain ⟨su, _, h⟩ := bind_eq_ok.1 h
  cases h

/-- The counterpart for `embedding_neel`: the last results are always returned, after `maxIter` iterations at most, and the recorded
outcome of the convergence test is right. -/
theorem C63_neel_last_results (E : Env) (sqrt : K → K) (solve : Solver K) (fuel : Nat) (I : Interactions K) (c : Config)
    (dets : List (List Nat)) (ham : SpMat K) (eigvects : List (List K)) (gs0 : List K) (h0 : eigvects[0]? = some gs0)
    (tol : K) (maxIter : Nat) (r : NeelResult K) (h : embeddingNeel E sqrt solve fuel I c dets ham eigvects tol maxIter = .ok r) :
    r.trace.length ≤ maxIter ∧ r.eigvals ≠ [] ∧ (r.converged = false → r.trace.length = maxIter) ∧
      ∃ p old new, gs0 :: r.trace.map (·.gs) = p ++ [old, new] ∧ r.eigvects[0]? = some new ∧
        (r.converged = true ↔ SmallChange sqrt tol new old) ∧ ∀ a b, Consec (p ++ [old]) a b → ¬ SmallChange sqrt tol b a := by
  unfold embeddingNeel at h
  obtain ⟨gs, hg, h⟩ := bind_eq_ok.1 h
  obtain ⟨su, _, h⟩ := bind_eq_ok.1 h
  obtain ⟨pR, _, h⟩ := bind_eq_ok.1 h
  obtain rfl := Option.some.inj ((pyGet_inv hg).symm.trans h0)
  obtain ⟨_, h1, h2, h3, h4, p, old, new, h5, h6, h7, h8⟩ := neelLoop_trace (P := fun _ => True) (Q := fun _ => True)
    (fun _ _ _ _ _ => trivial) (fun _ _ _ _ _ _ _ _ _ _ _ _ _ => trivial) gs maxIter 0 _ gs none [] r
    trivial (by simp) rfl (by simp)
    (by rintro a b ⟨p, q, e⟩; exact absurd (congrArg List.length e) (by simp; omega)) h
  refine ⟨by simpa using h1, h3, by simpa using h4, p, old, new, h5, h6, ?_, fun a b hab => ((converged_iff _ _ _ _).2.1 (h8 a b hab)).2⟩
  cases hcv : r.converged
  · rw [hcv] at h7
    simp [((converged_iff _ _ _ _).2.1 h7).2]
  · rw [hcv] at h7
    simp [(converged_iff _ _ _ _).1.1 h7]

/-- C63: a diagonalisation which returns no eigenvalue is repeated for ever (`while True`), so the bound on the number of
diagonalisations holds only for solvers that always find one. -/
theorem C63_endless (E : Env) (sqrt : K → K) (solve : Solver K) (hs : ∀ k M r, solve k M = .ok r → r.1 = []) (fuel : Nat) (I : Interactions K)
    (c : Config) (o : BlockOptions K) (dets : List (List Nat)) (ham : SpMat K) (eigvals : List K) (eigvects : List (List K)) (tol : K)
    (maxIter : Nat) (r : BlockResult K ⊕ List (BlockStep K)) :
    embeddingBlocks E sqrt solve fuel I c o dets ham eigvals eigvects tol maxIter ≠ .ok r := by
  have key : ∀ fuel h k r, blockSolve solve h fuel k ≠ .ok r := by
    intro fuel h
    induction fuel with
    | zero => intro k r h; cases h
    | succ n ih =>
      intro k r h
      unfold blockSolve at h
      obtain ⟨q, h1, h⟩ := bind_eq_ok.1 h
      rw [if_neg (not_not.2 (hs _ _ _ h1))] at h
      exact ih _ _ h
  intro h
  unfold embeddingBlocks at h
  obtain ⟨gs, hg, h⟩ := bind_eq_ok.1 h
  obtain ⟨e0, _, h⟩ := bind_eq_ok.1 h
  obtain ⟨su, _, h⟩ := bind_eq_ok.1 h
  cases maxIter with
  | zero => cases h
  | succ n =>
    unfold blockLoop at h
    obtain ⟨M, _, h⟩ := bind_eq_ok.1 h
    obtain ⟨q, h1, h⟩ := bind_eq_ok.1 h
    exact key _ _ _ _ h1

/-- C63: with a solver that always finds an eigenvalue there is one diagonalisation per iteration, hence at most `maxIter`: one
attempt per iteration gives the same execution as any larger number. -/
theorem C63_one_diagonalisation (E : Env) (sqrt : K → K) (solve : Solver K) (hs : ∀ k M r, solve k M = .ok r → r.1 ≠ []) (fuel : Nat)
    (I : Interactions K) (c : Config) (o : BlockOptions K) (dets : List (List Nat)) (ham : SpMat K) (eigvals : List K)
    (eigvects : List (List K)) (tol : K) (maxIter : Nat) :
    embeddingBlocks E sqrt solve (fuel + 1) I c o dets ham eigvals eigvects tol maxIter =
      embeddingBlocks E sqrt solve 1 I c o dets ham eigvals eigvects tol maxIter := by
  have key : ∀ h k, blockSolve solve h (fuel + 1) k = blockSolve solve h 1 k := by
    intro h k
    unfold blockSolve
    refine bind_congr_ok fun q hq => ?_
    rw [if_pos (hs _ _ _ hq), if_pos (hs _ _ _ hq)]
  unfold embeddingBlocks
  refine bind_congr_ok fun gs _ => bind_congr_ok fun e0 _ => bind_congr_ok fun su _ => ?_
  have : ∀ n k gs e b t, blockLoop E sqrt solve (fuel + 1) I c su o dets ham tol n k gs e b t =
      blockLoop E sqrt solve 1 I c su o dets ham tol n k gs e b t := by
    intro n
    induction n with
    | zero => intro k gs e b t; cases b <;> rfl
    | succ n ih =>
      intro k gs e b t
      unfold blockLoop
      refine bind_congr_ok fun M _ => ?_
      rw [key]
      refine bind_congr_ok fun q _ => bind_congr_ok fun gs _ => bind_congr_ok fun e0 _ => bind_congr_ok fun cv _ => ?_
      rw [ih]
  exact this _ _ _ _ _ _

end

/-- Two 2×2 blocks side by side, numbered block by block: the relabelling to the row-by-row numbering of the 4×2 lattice. -/
def twoEnv : Env := { SetSem.sorted with transferIsOne := fun _ _ row s => row = 4 * (s % 4 / 2) + 2 * (s / 4) + s % 2 }

/-- A diagonalisation that changes the sign of the eigenvector at each call. -/
def flipSolver : Solver ℚ := fun k M => if M.dim = 1 then .ok ([-1], [[if k % 2 = 0 then -1 else 1]]) else .error .valueError

/-- The square root on {0, 1, 4}. -/
def sqrtUpTo4 (x : ℚ) : ℚ := if x = 4 then 2 else x

/-- The number of iterations when `None` is returned. -/
def ranOut {α γ : Type} : Py (α ⊕ List γ) → Option Nat
  | .ok (.inr t) => some t.length
  | _ => none

/-- C63, last clause: false. After three iterations without convergence (the eigenvector is the same up to its sign) nothing is
returned, although every diagonalisation succeeded; this is so with one neighbour and with four. -/
theorem C63_no_last_results : flipSolver.Good 1 ∧ (∀ k M r, flipSolver k M = .ok r → r.1 ≠ []) ∧ ∀ b,
    ranOut (embeddingBlocks twoEnv sqrtUpTo4 flipSolver 1 ⟨1, 1, 0, 0, 0, 0, 0, 0, 0, 0⟩ (rectConf 1 1 2 4 0) ⟨!b, b, true, 0⟩
      [[0, 1, 2, 3]] ⟨1, []⟩ [0] [[1]] 1 3) = some 3 := by
  refine ⟨?_, ?_, by decide +kernel⟩
  · intro k M vals vects gs _ h hg
    unfold flipSolver at h
    by_cases hd : M.dim = 1
    · rw [if_pos hd] at h
      obtain ⟨rfl, rfl⟩ := Prod.mk.inj (Except.ok.inj h)
      obtain rfl := Option.some.inj hg
      refine ⟨rfl, _, List.mem_singleton.2 rfl, ?_⟩
      split_ifs <;> norm_num
    · rw [if_neg hd] at h; cases h
  · rintro k M r h
    unfold flipSolver at h
    by_cases hd : M.dim = 1
    · rw [if_pos hd] at h
      obtain rfl := Except.ok.inj h
      simp
    · rw [if_neg hd] at h; cases h

/-! ### Concrete cases -/

/-- A diagonalisation for the examples: always the first unit vector. -/
def firstSolver : Solver ℚ := fun _ M => if M.dim = 2 then .ok ([0], [[1, 0]]) else .error .valueError

theorem firstSolver_good : firstSolver.Good 2 := by
  intro k M vals vects gs _ h hg
  unfold firstSolver at h
  by_cases hd : M.dim = 2
  · rw [if_pos hd] at h
    obtain ⟨rfl, rfl⟩ := Prod.mk.inj (Except.ok.inj h)
    obtain rfl := Option.some.inj hg
    exact ⟨rfl, 1, by simp, by norm_num⟩
  · rw [if_neg hd] at h; cases h

/-- The number of iterations of `embedding_neel` and whether it converged. -/
def neelRun (r : Py (NeelResult ℚ)) : Option (Nat × Bool) :=
  match r with
  | .ok r => some (r.trace.length, r.converged)
  | .error _ => none

/-- One hole on a 2×1 block, with the hole on the left: the border sites next to it get the hole, the others a down spin. -/
example : (do let su ← neelSetup SetSem.sorted (rectConf 2 1 1 1 0)
              let p ← spinsProbabilities (K := ℚ) (rectConf 2 1 1 1 0) [[0, 1], [1, 0]] [1, 0]
              updateProb SetSem.sorted (rectConf 2 1 1 1 0) su.emb su.frontier p) =
    .ok [(1, [0, 0, 0, 0, 0, 0]), (-1, [0, 1, 1, 1, 0, 0]), (0, [1, 0, 0, 0, 1, 1])] := by decide +kernel
example := C59_border_update SetSem.sorted (rectConf 2 1 1 1 0) (rectConf_ok _ _ _ _ _ (by decide) (by decide) (by decide))
  [[0, 1], [1, 0]] rfl (by decide) ([1, 0] : List ℚ) rfl ⟨1, by simp, by norm_num⟩

/-- Two iterations of `embedding_neel` on this block, starting from the other state. -/
example : neelRun (embeddingNeel exEnv sqrtUpTo4 firstSolver 1 ⟨1, 1, 0, 0, 0, 0, 0, 0, 0, 0⟩ (rectConf 2 1 1 1 0) [[0, 1], [1, 0]]
      ⟨2, [(1, 0, 1), (1, 1, 0)]⟩ [[0, 1]] 1 5) =
    some (2, true) := by decide +kernel

end TJ
