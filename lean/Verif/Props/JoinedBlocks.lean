/-
C120: when the relabelling search of `is_bond_linear` succeeds on two joined blocks
(/repo/baseConstruction.py 356-402, /repo/latticeFunctions.py 195, build_bond_matrix_block_embedding).
-/
import Verif.Lemmas.SimpleSpectrum
import Verif.Lemmas.RealEigh
import Verif.Props.Embedding5

namespace TJ

open Finset

section

variable {K : Type} [Field K] [LinearOrder K] [IsStrictOrderedRing K]

/-- The blocks for which the spectrum is shown to be simple: one row of any length, 2×2 sites, 3×3 sites. -/
def SimpleBlock (W H : Nat) : Prop := H = 1 ∨ (W = 2 ∧ H = 2) ∨ (W = 3 ∧ H = 3)

/-- C120: the bond matrix of two joined blocks with one row (of any length), of 2×2 sites or of 3×3 sites has a simple spectrum:
in every exact diagonalisation all eigenvalues differ. -/
theorem C120_simple (nbh nbv nb : Nat) (h1 : 1 ≤ nbh) (h2 : 1 ≤ nbv) (h3 : 1 ≤ nb) (hs : SimpleBlock (nbh * nb) (nbv * nb))
    (emb : NdMat) (hemb : buildBondMatrixBlockEmbedding nbh nbv nb = .ok emb) (U : Nat → Nat → K) (d : Nat → K)
    (hU : EighOf emb.rows emb.e U d) (k l : Nat) (hk : k < emb.rows) (hl : l < emb.rows) (hkl : k ≠ l) : d k ≠ d l := by
  intro hd
  apply hkl
  obtain ⟨m, m1, m2, _, m4, _⟩ := C16_two_blocks nbh nbv nb h1 h2 h3
  obtain rfl := Except.ok.inj (hemb.symm.trans m1)
  have hn : emb.rows = 2 * ((nbh * nb) * (nbv * nb)) := by rw [m2]; ring
  refine simple_of_coordinate hU ?_ k hk l hl hd
  intro x
  rcases hs with hs | ⟨hw, hh⟩ | ⟨hw, hh⟩
  · rw [hs, Nat.mul_one] at hn
    refine ⟨fun j => if j = 0 then 1 else 0, fun f hf hc => ?_⟩
    have e := hf.near _ m4
    rw [hs] at e
    rw [hn] at e hc ⊢
    refine path_zero _ e ?_
    rcases Nat.eq_zero_or_pos (nbh * nb) with h | h
    · rw [hn, h] at hk; omega
    · have hc' : 0 < nbh → 0 < nb → f 0 = 0 := by simpa using hc
      exact hc' h1 h3
  · obtain ⟨c, hc⟩ := square2_coordinate x
    refine ⟨c, fun f hf h0 => ?_⟩
    have e := hf.near _ m4
    rw [hw, hh] at e hn
    rw [hn] at e h0 ⊢
    exact hc f e h0
  · obtain ⟨c, hc⟩ := square3_coordinate x
    refine ⟨c, fun f hf h0 => ?_⟩
    have e := hf.near _ m4
    rw [hw, hh] at e hn
    rw [hn] at e h0 ⊢
    exact hc f e h0

/-- C120: on these blocks `is_bond_linear` decides collinearity on the joined lattice, whatever exact eigenvectors `eigh` returns:
the hypothesis on the geometry of C74, C93, C106 and C107 holds for every configuration of such blocks. -/
theorem C120_geometry (S : SetSem) (rnd : K → K) (ε : K) (hr : Rounds rnd ε) (eigh : NdMat → Nat → Nat → K) (c : Config)
    (hc : RectConf c c.nbh c.nbv c.nblocs) (hs : SimpleBlock (c.nbh * c.nblocs) (c.nbv * c.nblocs))
    (hε : 3 * ((2 * c.nsites : Nat) : K) ^ 2 * ε < 1)
    (emb P : NdMat) (hemb : buildBondMatrixBlockEmbedding c.nbh c.nbv c.nblocs = .ok emb)
    (hP : buildRectangularBondMatrix (2 * c.nbh) c.nbv c.nblocs = .ok P)
    (d d' : Nat → K) (hU : EighOf (2 * c.nsites) emb.e (eigh emb) d) (hW : EighOf (2 * c.nsites) P.e (eigh P) d')
    (dets : List (List Nat)) (reverse : Bool) (su : BlockSetup) (hsu : blockSetup S c dets reverse = .ok su) :
    GeomLattice (clusterEnv S rnd eigh) su.cE (twoPos (c.nbh * c.nblocs) (c.nbv * c.nblocs)) := by
  refine C74_search_geometry S rnd ε hr eigh c hc hε emb P hemb hP d d' hU hW ?_ dets reverse su hsu
  have g := blockSetup_geom S hc hsu
  have he : emb.rows = 2 * c.nsites := by
    obtain rfl := Except.ok.inj (hemb.symm.trans g.emb)
    exact g.erows
  intro k hk l hl hd
  by_contra hne
  rw [← he] at hU hk hl
  exact C120_simple c.nbh c.nbv c.nblocs hc.hh hc.hv hc.hb hs emb hemb _ d hU k l hk hl hne hd

/-- The other side: when a number `g ≥ 3` divides both the length of the joined lattice plus one and its height plus one
(for instance two rows of 1, 4, 7, … sites, or `H = 2 W`), in every exact diagonalisation two eigenvalues coincide. -/
theorem C120_degenerate (nbh nbv nb : Nat) (h1 : 1 ≤ nbh) (h2 : 1 ≤ nbv) (h3 : 1 ≤ nb) (g : Nat) (hg : 3 ≤ g)
    (hgw : g ∣ 2 * (nbh * nb) + 1) (hgh : g ∣ nbv * nb + 1)
    (emb : NdMat) (hemb : buildBondMatrixBlockEmbedding nbh nbv nb = .ok emb) (U : Nat → Nat → K) (d : Nat → K)
    (hU : EighOf emb.rows emb.e U d) : ∃ k < emb.rows, ∃ l < emb.rows, k ≠ l ∧ d k = d l := by
  by_contra hcon
  push Not at hcon
  obtain ⟨m, m1, m2, _, m4, _⟩ := C16_two_blocks nbh nbv nb h1 h2 h3
  obtain rfl := Except.ok.inj (hemb.symm.trans m1)
  have hn : emb.rows = 2 * ((nbh * nb) * (nbv * nb)) := by rw [m2]; ring
  rw [hn] at hU hcon m4
  have hW : 0 < nbh * nb := Nat.mul_pos h1 h3
  have hH : 2 ≤ nbv * nb := by
    have := Nat.le_of_dvd (by omega) hgh
    omega
  generalize nbh * nb = W at *
  generalize nbv * nb = H at *
  have gw : (g : Int) ∣ 2 * (W : Int) + 1 := by exact_mod_cast hgw
  have gh : (g : Int) ∣ (H : Int) + 1 := by exact_mod_cast hgh
  have hg' : (3 : Int) ≤ g := by exact_mod_cast hg
  have small : ∀ x : Int, x ≠ 0 → |x| ≤ 4 → ¬ (2 * (g : Int)) ∣ x := by
    intro x hx hb hdvd
    have := Int.le_of_dvd (abs_pos.2 hx) ((dvd_abs _ _).2 hdvd)
    omega
  have shift : ∀ x y : Int, (2 * (g : Int)) ∣ x + 2 * g + y ↔ (2 * (g : Int)) ∣ x + y := by
    intro x y
    rw [show x + 2 * (g : Int) + y = x + y + 2 * g by ring]
    exact dvd_add_self_right
  have f1 := billiard_eigen (K := K) hW m4 (φ := fun x => if (2 * (g : Int)) ∣ x then 1 else 0) (g := g)
    (fun x => by simp only [dvd_neg]) (fun x => by simp only [dvd_add_self_right]) gw gh
  have f2 := billiard_eigen (K := K) hW m4
    (φ := fun x => if (2 * (g : Int)) ∣ x + 1 ∨ (2 * (g : Int)) ∣ x + -1 then 1 else 0) (g := g)
    (fun x => by
      have a : (2 * (g : Int)) ∣ -x + 1 ↔ (2 * (g : Int)) ∣ x + -1 := by
        rw [← dvd_neg, show -(-x + 1) = x + -1 by ring]
      have b : (2 * (g : Int)) ∣ -x + -1 ↔ (2 * (g : Int)) ∣ x + 1 := by
        rw [← dvd_neg, show -(-x + -1) = x + 1 by ring]
      simp only [a, b, or_comm]) (fun x => by simp only [shift]) gw gh
  obtain ⟨i, hi, ei⟩ := twoPos_mem (W := W) (H := H) 0 0 (by omega) (by omega)
  obtain ⟨j, hj, ej⟩ := twoPos_mem (W := W) (H := H) 0 1 (by omega) (by omega)
  have := proportional_of_simple hU (fun k hk l hl h => by by_contra hne; exact hcon k hk l hl hne h) f1 f2 i hi j hj
  simp only [ei, ej, billiard, altSign] at this
  have s2 := small 2 (by norm_num) (by norm_num)
  have s3 := small 3 (by norm_num) (by norm_num)
  have s1 := small 1 (by norm_num) (by norm_num)
  have s1' := small (-1) (by norm_num) (by norm_num)
  have s4 := small 4 (by norm_num) (by norm_num)
  norm_num [s1, s1', s2, s3, s4] at this

end

/-- C120 over the real numbers: with an exact `eigh` no hypothesis on the geometry is left. -/
theorem C120_exact (S : SetSem) (c : Config) (hc : RectConf c c.nbh c.nbv c.nblocs)
    (hs : SimpleBlock (c.nbh * c.nblocs) (c.nbv * c.nblocs)) (dets : List (List Nat)) (reverse : Bool) (su : BlockSetup)
    (hsu : blockSetup S c dets reverse = .ok su) :
    GeomLattice (clusterEnv S id realEigh) su.cE (twoPos (c.nbh * c.nblocs) (c.nbv * c.nblocs)) := by
  have g := blockSetup_geom S hc hsu
  obtain ⟨emb, a1, a2, _, _, a5⟩ := C16_two_blocks c.nbh c.nbv c.nblocs hc.hh hc.hv hc.hb
  obtain ⟨P, b1, b2, _, _, b5, _⟩ := C14_rectangular (2 * c.nbh) c.nbv c.nblocs (by have := hc.hh; omega) hc.hv hc.hb
  obtain ⟨d, hd⟩ := realEigh_exact emb a5
  obtain ⟨d', hd'⟩ := realEigh_exact P b5
  have e1 : emb.rows = 2 * c.nsites := by rw [a2, g.rows]; ring
  have e2 : P.rows = 2 * c.nsites := by rw [b2, g.rows]; ring
  rw [e1] at hd
  rw [e2] at hd'
  exact C120_geometry S id 0 rounds_id realEigh c hc hs (by simp) emb P a1 b1 d d' hd hd' dets reverse su hsu

/-- Four up spins next to four down spins, two 2×2 blocks: the statement of C74 without a hypothesis on the geometry. -/
example (b : Bool) := C74_static_dressing (clusterEnv SetSem.sorted id realEigh) sqrtUpTo4 oneSolver 1 exI (rectConf 1 1 2 0 0)
  (rectConf_ok _ _ _ _ _ (by decide) (by decide) (by decide)) [[0, 1, 2, 3]] oneSolver_good rfl (by decide) ⟨false, b, true, 0⟩ rfl (fun _ => rfl)
  (C120_exact SetSem.sorted (rectConf 1 1 2 0 0) (rectConf_ok _ _ _ _ _ (by decide) (by decide) (by decide)) (Or.inr (Or.inl ⟨rfl, rfl⟩))
    [[0, 1, 2, 3]] true) ⟨1, []⟩ rfl [0] [[1]] [1] rfl rfl 1 5

/-- Two joined rows of five sites and two joined 3×3 blocks have ten and eighteen different eigenvalues. -/
example : (∃ emb U d, buildBondMatrixBlockEmbedding 5 1 1 = .ok emb ∧ EighOf (K := ℝ) emb.rows emb.e U d ∧
      ∀ k l, k < emb.rows → l < emb.rows → k ≠ l → d k ≠ d l) ∧
    ∃ emb U d, buildBondMatrixBlockEmbedding 1 1 3 = .ok emb ∧ EighOf (K := ℝ) emb.rows emb.e U d ∧
      ∀ k l, k < emb.rows → l < emb.rows → k ≠ l → d k ≠ d l := by
  constructor
  · obtain ⟨emb, a1, _, _, _, a5⟩ := C16_two_blocks 5 1 1 (by decide) (by decide) (by decide)
    obtain ⟨U, d, h⟩ := eigh_exists emb.rows emb.e a5
    exact ⟨emb, U, d, a1, h, fun k l => C120_simple 5 1 1 (by decide) (by decide) (by decide) (Or.inl rfl) emb a1 U d h k l⟩
  · obtain ⟨emb, a1, _, _, _, a5⟩ := C16_two_blocks 1 1 3 (by decide) (by decide) (by decide)
    obtain ⟨U, d, h⟩ := eigh_exists emb.rows emb.e a5
    exact ⟨emb, U, d, a1, h, fun k l =>
      C120_simple 1 1 3 (by decide) (by decide) (by decide) (Or.inr (Or.inr ⟨rfl, rfl⟩)) emb a1 U d h k l⟩

/-- Two rows of four sites, joined (`g = 3` divides 9 and 3): two of the sixteen eigenvalues coincide. -/
example : ∃ emb U d, buildBondMatrixBlockEmbedding 4 2 1 = .ok emb ∧ EighOf (K := ℝ) emb.rows emb.e U d ∧
    ∃ k < emb.rows, ∃ l < emb.rows, k ≠ l ∧ d k = d l := by
  obtain ⟨emb, a1, _, _, _, a5⟩ := C16_two_blocks 4 2 1 (by decide) (by decide) (by decide)
  obtain ⟨U, d, h⟩ := eigh_exists emb.rows emb.e a5
  exact ⟨emb, U, d, a1, h, C120_degenerate 4 2 1 (by decide) (by decide) (by decide) 3 (by decide) (by decide) (by decide) emb a1 U d h⟩

end TJ
