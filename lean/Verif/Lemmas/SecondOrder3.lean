/-
Lemmas for the dynamic dressing of embedding_blocks: what is added for one perturbator.
-/
import Verif.Lemmas.SecondOrder2

namespace TJ

open Finset

section
variable {K : Type} [Field K]

/-! ### Energy of a perturbator -/

/-- The energy of an occupation of the first `N` sites. -/
def energyN (I : Interactions K) (pos : Nat → Pt) (N : Nat) (σ : Nat → Occ) : K :=
  hamEl I (fpos N pos) ⟨false, true, false, false, false, true⟩ (fun s : Fin N => σ s) (fun s : Fin N => σ s)

theorem computeEnergy_eq (E : Env) (I : Interactions K) {c : Config} {pos : Nat → Pt} (g : GeomLattice E c pos) (hf : c.Full) {det : List Nat}
    (hv : ValidDet c.nsites det) : computeEnergy E c I det = .ok (energyN I pos c.nsites (occC c det)) := by
  unfold computeEnergy
  refine bind_ok (computeStatic_eq I g hf hv) (bind_ok (computeRepulsion_eq I g hf hv) ?_)
  unfold energyN hamEl staticEl repEl
  simp only [Bool.false_eq_true, if_false, if_true, zero_add, add_zero]
  rfl

theorem energyN_join (I : Interactions K) (pos : Nat → Pt) {n : Nat} (P : Conf2 n) {σ : Nat → Occ} (h : ∀ z < n + n, σ z = Conf2.join P z) :
    energyN I pos (n + n) σ = jointEnergy I (fpos (n + n) pos) P := by
  have e : (fun s : Fin (n + n) => σ s) = Fin.append P.1 P.2 := by
    funext s
    rw [h s.val s.2]
    refine Fin.addCases (fun x => ?_) (fun y => ?_) s
    · rw [Fin.append_left]; exact Conf2.join_left P x.2
    · rw [Fin.append_right]; exact Conf2.join_right P y.2
  unfold energyN jointEnergy
  rw [e]

/-! ### The setting -/

/-- What is known about the block `c` and its neighbour when both have the same numbers of particles. -/
structure BlockCtx (E : Env) (c : Config) (su : BlockSetup) (dets : List (List Nat)) (pos : Nat → Pt) : Prop where
  hf : c.Full
  hn : c.nholes + c.nbeta ≤ c.nsites
  hb : constructBasis c = .ok dets
  nB : su.cB.nsites = c.nsites
  fullB : su.cB.Full
  hB : su.cB.nholes = c.nholes
  bB : su.cB.nbeta = c.nbeta
  memB : ∀ d, d ∈ su.detsB ↔ d ∈ dets
  nE : su.cE.nsites = c.nsites + c.nsites
  hE : su.cE.nholes = c.nholes + c.nholes
  bE : su.cE.nbeta = c.nbeta + c.nbeta
  gE : GeomLattice E su.cE pos
  nF : su.cF.nsites = c.nsites + c.nsites
  hF : su.cF.nholes = c.nholes + c.nholes
  bF : su.cF.nbeta = c.nbeta + c.nbeta
  gF : GeomLattice E su.cF pos
  fullF : su.cF.Full
  restr : su.cE.restr = (su.fA, su.fB)
  ltA : ∀ s ∈ su.fA, s < c.nsites
  geB : ∀ s ∈ su.fB, c.nsites ≤ s ∧ s < c.nsites + c.nsites
  neB : su.fB ≠ []
  reach : ∀ x y : Fin c.nsites, Near (pos (lsite x)) (pos (rsite y)) ∨ TwoBonds (fpos (c.nsites + c.nsites) pos) (lsite x) (rsite y) →
    x.val ∈ su.fA ∧ c.nsites + y.val ∈ su.fB

/-- A configuration and a determinant that describe an occupation. -/
structure Describes {n : Nat} (c' : Config) (d : List Nat) (α : Conf n) : Prop where
  sites : c'.nsites = n
  full : c'.Full
  holes : c'.nholes = α.count .hole
  beta : c'.nbeta = α.count .down
  det : d = detOf n α.ext

theorem count_three {n : Nat} (α : Conf n) : α.count .hole + α.count .down + α.count .up = n := by
  have := cnt_add n α.ext
  rw [Conf.cnt_ext, Conf.cnt_ext, Conf.cnt_ext] at this
  exact this

theorem Describes.valid {n : Nat} {c' : Config} {d : List Nat} {α : Conf n} (h : Describes c' d α) : ValidDet c'.nsites d := by
  rw [h.sites, h.det]; exact detOf_valid _ _

theorem Describes.occ {n : Nat} {c' : Config} {d : List Nat} {α : Conf n} (h : Describes c' d α) {s : Nat} (hs : s < n) :
    occC c' d s = α ⟨s, hs⟩ := by
  rw [← α.ext_lt hs]
  show TJ.occ c'.nholes c'.nbeta d s = _
  rw [h.holes, h.beta, h.det]
  exact occ_detOf (α.cnt_ext _) (α.cnt_ext _) hs

theorem Describes.nalpha {n : Nat} {c' : Config} {d : List Nat} {α : Conf n} (h : Describes c' d α) : c'.nalpha = α.count .up := by
  unfold Config.nalpha
  have := count_three α
  rw [h.sites, h.holes, h.beta]; omega

variable [LinearOrder K]

theorem secondOrder_comm (I : Interactions K) {n : Nat} (pos : Fin (n + n) → Pt) (ψ : Conf n → K) (en thr : K) (s : Occ) (P Q Q' : Conf2 n) :
    secondOrder I pos ψ en thr s P Q' Q = secondOrder I pos ψ en thr s P Q Q' := by
  unfold secondOrder
  have : ψ Q'.2 * ψ Q.2 * returnAmp I pos s P Q' * returnAmp I pos s P Q = ψ Q.2 * ψ Q'.2 * returnAmp I pos s P Q * returnAmp I pos s P Q' := by ring
  rw [this]

theorem secondOrder_zero (I : Interactions K) {n : Nat} (pos : Fin (n + n) → Pt) (ψ : Conf n → K) (en thr : K) (s : Occ) (P Q Q' : Conf2 n)
    (h : returnAmp I pos s P Q = 0 ∨ returnAmp I pos s P Q' = 0) : secondOrder I pos ψ en thr s P Q Q' = 0 := by
  unfold secondOrder
  have : ψ Q.2 * ψ Q'.2 * returnAmp I pos s P Q * returnAmp I pos s P Q' = 0 := by rcases h with h | h <;> rw [h] <;> ring
  rw [this, zero_div]
  exact ite_self _

/-- What one perturbator adds. -/
def pertSum {c : Config} {dets : List (List Nat)} (I : Interactions K) (pos : Nat → Pt) (L N : Nat) (gs : List K) (en thr : K) (s : Occ)
    (P : Conf2 c.nsites) : Fin dets.length → Fin dets.length → K := fun i j =>
  ∑ Q, ∑ Q', if Q ≠ Q' then pairEl L N (secondOrder I (fpos (c.nsites + c.nsites) pos) (amp c dets gs) en thr s P)
    (conf c dets[i]) (conf c dets[j]) Q Q' else 0

section
variable {E : Env} {c : Config} {su : BlockSetup} {dets : List (List Nat)} {pos : Nat → Pt} (I : Interactions K)

omit [LinearOrder K] in
/-- The determinant of both blocks. -/
theorem extend_ok (X : BlockCtx E c su dets pos) {cPA cPB : Config} {pertA pertB : List Nat} {P : Conf2 c.nsites}
    (hA : Describes cPA pertA P.1) (hB : Describes cPB pertB P.2)
    (hh : P.1.count .hole + P.2.count .hole = c.nholes + c.nholes) (hd : P.1.count .down + P.2.count .down = c.nbeta + c.nbeta) :
    ∃ pert, extendDeterminant E.toSetSem cPA cPB pertA pertB = .ok pert ∧ ValidDet (c.nsites + c.nsites) pert ∧
      (∀ z < c.nsites + c.nsites, occ (c.nholes + c.nholes) (c.nbeta + c.nbeta) pert z = Conf2.join P z) ∧
      computeEnergy E su.cF I pert = .ok (jointEnergy I (fpos (c.nsites + c.nsites) pos) P) := by
  have t1 := count_three P.1
  have t2 := count_three P.2
  obtain ⟨pert, e1, e2, e3, e4⟩ := C12_extend E.toSetSem cPA cPB hA.full hB.full (by rw [hA.sites, hA.holes, hA.beta]; omega)
    (by rw [hB.sites, hB.holes, hB.beta]; omega) pertA pertB hA.valid hB.valid
  rw [hA.sites, hB.sites] at e2
  have hocc : ∀ z < c.nsites + c.nsites, occ (c.nholes + c.nholes) (c.nbeta + c.nbeta) pert z = Conf2.join P z := by
    intro z hz
    rw [hA.holes, hB.holes, hA.beta, hB.beta, hh, hd] at e3 e4
    by_cases h1 : z < c.nsites
    · rw [e3 z (by rw [hA.sites]; exact h1), Conf2.join_left P h1]
      have := hA.occ h1
      rw [← this]
      show _ = occ cPA.nholes cPA.nbeta pertA z
      rw [hA.holes, hA.beta]
    · obtain ⟨w, rfl⟩ := Nat.exists_eq_add_of_le (Nat.le_of_not_lt h1)
      have hw : w < c.nsites := by omega
      rw [hA.sites] at e4
      rw [e4 w (by rw [hB.sites]; exact hw), Conf2.join_right P hw]
      have := hB.occ hw
      rw [← this]
      show _ = occ cPB.nholes cPB.nbeta pertB w
      rw [hB.holes, hB.beta]
  refine ⟨pert, e1, e2, hocc, ?_⟩
  rw [computeEnergy_eq E I X.gF X.fullF (by rw [X.nF]; exact e2), X.nF]
  congr 1
  apply energyN_join
  intro z hz
  rw [← hocc z hz]
  show occ su.cF.nholes su.cF.nbeta pert z = _
  rw [X.hF, X.bF]

/-- The electrons of spin `s` come back over the border: everything that one perturbator adds. -/
theorem addPerturbator_borrow (X : BlockCtx E c su dets pos) {L : Nat} {nbr : Bool} (hq : nbr = false → SquareConf c L) (thr : K)
    {gs : List K} (hgs : gs.length = dets.length) (en : K) {cPA cPB : Config} {pertA pertB : List Nat} {P : Conf2 c.nsites}
    (hA : Describes cPA pertA P.1) (hB : Describes cPB pertB P.2) {s : Occ} (hs : s ≠ .hole)
    (h1 : ∀ o, (P.1.count o : Int) = c.counts.get o + (if o = s then 1 else 0) - (if o = .hole then 1 else 0))
    (h2 : ∀ o, (P.2.count o : Int) = c.counts.get o + (if o = .hole then 1 else 0) - (if o = s then 1 else 0))
    {h : SpMat K} (hg : GoodMat dets.length h) :
    ∃ h', addPerturbator E I c su nbr thr gs en cPA cPB cPB.counts pertA pertB h = .ok h' ∧ GoodMat dets.length h' ∧
      entries dets.length h' = entries dets.length h + pertSum I pos L (sides nbr) gs en thr s P := by
  have a1 := h1 .hole
  have a2 := h1 .down
  have b1 := h2 .hole
  have b2 := h2 .down
  have b3 := h2 .up
  simp only [Config.counts, Counts.get] at a1 a2 b1 b2 b3
  obtain ⟨pert, e1, e2, e3, e4⟩ := extend_ok I X hA hB (by omega) (by omega)
  have dB : cPB.nalpha + cPB.nbeta - su.cB.nalpha - su.cB.nbeta = -1 := by
    unfold Config.nalpha; rw [hB.sites, hB.holes, X.nB, X.hB]; simp [hs.symm] at b1; omega
  have dM : cPB.nalpha - cPB.nbeta - su.cB.nalpha + su.cB.nbeta = - s.twice := by
    have : su.cB.nalpha = c.nalpha := by unfold Config.nalpha; rw [X.nB, X.hB, X.bB]
    rw [hB.nalpha, hB.beta, this, X.bB]
    cases s
    · exact absurd rfl hs
    · simp [Occ.twice] at b2 b3 ⊢; omega
    · simp [Occ.twice] at b2 b3 ⊢; omega
  obtain ⟨onB, o1, _, o2⟩ := getIndexesOf_spec E.toSetSem hB.valid .hole false
  obtain ⟨onA, o3, _, o4⟩ := getIndexesOf_spec E.toSetSem hA.valid s false
  simp only [Bool.false_eq_true, if_false] at o2 o4
  set cR : Config := { su.cE with restr := (E.inter su.cE.restr.2 (onB.map (· + c.nsites)), E.inter su.cE.restr.1 onA) } with hcR
  have hNR : cR.nsites = c.nsites + c.nsites := X.nE
  have gR : GeomLattice E cR pos := ⟨X.gE.inj, X.gE.bond, X.gE.linear, X.gE.tile⟩
  have r1 : ∀ z, z ∈ cR.restr.1 ↔ z ∈ su.fB ∧ ∃ y, y < c.nsites ∧ occC cPB pertB y = .hole ∧ z = c.nsites + y := by
    intro z
    show z ∈ E.inter su.cE.restr.2 _ ↔ _
    rw [E.mem_inter, X.restr, List.mem_map]
    refine and_congr_right fun _ => ?_
    constructor
    · rintro ⟨y, hy, rfl⟩
      obtain ⟨y1, y2, _⟩ := (o2 y).1 hy
      exact ⟨y, by rw [← hB.sites]; exact y1, y2, Nat.add_comm _ _⟩
    · rintro ⟨y, y1, y2, rfl⟩
      have y1' : y < cPB.nsites := by rw [hB.sites]; exact y1
      exact ⟨y, (o2 y).2 ⟨y1', y2, (hB.full y y1').1⟩, Nat.add_comm _ _⟩
  have r2 : ∀ z, z ∈ cR.restr.2 ↔ z ∈ su.fA ∧ z < c.nsites ∧ occC cPA pertA z = s := by
    intro z
    show z ∈ E.inter su.cE.restr.1 _ ↔ _
    rw [E.mem_inter, X.restr]
    refine and_congr_right fun _ => ?_
    rw [o4, hA.sites]
    exact ⟨fun h => ⟨h.1, h.2.1⟩, fun h => ⟨h.1, h.2, (hA.full z (by rw [hA.sites]; exact h.1)).1⟩⟩
  obtain ⟨LQ, q1, q2, q3, q4⟩ := coupled_list E I (cR := cR) (n := c.nsites) hNR gR (P := P) hs (pert := pert)
    (by rw [hNR]; exact e2)
    (fun z hz => by
      rw [← e3 z hz]
      show occ su.cE.nholes su.cE.nbeta pert z = _
      rw [X.hE, X.bE])
    (fun z hz => by
      obtain ⟨_, y, y1, y2, rfl⟩ := (r1 z).1 hz
      refine ⟨by omega, by omega, ?_⟩
      rw [Conf2.join_right P y1, ← hB.occ y1]; exact y2)
    (fun z hz => by
      obtain ⟨_, z1, z2⟩ := (r2 z).1 hz
      refine ⟨z1, ?_⟩
      rw [Conf2.join_left P z1, ← hA.occ z1]; exact z2)
    (fun x y hxy hx hy => by
      obtain ⟨k1, k2⟩ := X.reach x y hxy
      refine ⟨(r1 _).2 ⟨k2, y.val, y.2, ?_, rfl⟩, (r2 _).2 ⟨k1, x.2, ?_⟩⟩
      · rw [hB.occ y.2]; exact hy
      · rw [hA.occ x.2]; exact hx)
  -- the particles of the coupled states
  have hsec : ∀ Q ∈ LQ, HasCounts c Q.1 ∧ HasCounts c Q.2 := by
    intro Q hQ
    obtain ⟨x, y, hx, hy, rfl⟩ := q2 Q hQ
    have u1 := fun o => count_set P.1 x o (new := .hole) hx
    have u2 := fun o => count_set P.2 y o (new := s) hy
    have k1 : ∀ o, ((Conf.count (Function.update P.1 x .hole) o : Nat) : Int) = c.counts.get o := fun o => by
      rw [u1 o, h1 o]; ring
    have k2 : ∀ o, ((Conf.count (Function.update P.2 y s) o : Nat) : Int) = c.counts.get o := fun o => by
      rw [u2 o, h2 o]; ring
    refine ⟨⟨?_, ?_⟩, ?_, ?_⟩
    · exact Int.ofNat.inj (k1 .hole)
    · exact Int.ofNat.inj (k1 .down)
    · exact Int.ofNat.inj (k2 .hole)
    · exact Int.ofNat.inj (k2 .down)
  set x := secondOrder I (fpos (c.nsites + c.nsites) pos) (amp c dets gs) en thr s P with hx
  obtain ⟨h', f1, f2, f3⟩ := foldlM_adds (GoodMat dets.length) (entries dets.length)
    (f := fun h (p : Conf2 c.nsites × Conf2 c.nsites) => addCoupling c nbr thr gs en (jointEnergy I (fpos (c.nsites + c.nsites) pos) P) h
      ((p.1.det, returnAmp I (fpos (c.nsites + c.nsites) pos) s P p.1), (p.2.det, returnAmp I (fpos (c.nsites + c.nsites) pos) s P p.2)))
    (fun p => fun (i j : Fin dets.length) => pairEl L (sides nbr) x (conf c dets[i]) (conf c dets[j]) p.1 p.2 +
      pairEl L (sides nbr) x (conf c dets[i]) (conf c dets[j]) p.2 p.1) (pairsOf LQ) h hg
    (fun p hp h hg => by
      obtain ⟨m1, m2⟩ := mem_pairsOf hp
      obtain ⟨s1, s2⟩ := hsec _ m1
      obtain ⟨s3, s4⟩ := hsec _ m2
      exact addCoupling_spec hq X.hn X.hb thr hgs en _ s1 s2 s3 s4 (x := x) rfl (secondOrder_comm I _ _ _ _ _ _ _ _) hg)
  refine ⟨h', ?_, f2, ?_⟩
  · unfold addPerturbator
    simp only [Config.counts]
    rw [dB, dM]
    refine bind_ok e1 (bind_ok e4 (bind_ok (a := onB) ?_ (bind_ok (a := onA) ?_ (bind_ok (a := ⟨true, false, false, true, true, false⟩) ?_
      (bind_ok q4 ?_)))))
    · simpa [Occ.twice] using o1
    · rw [← o3]
      congr 1
      simp
    · rfl
    · rw [pairsOf_map, List.foldlM_map]
      exact f1
  · rw [f3]
    congr 1
    funext i j
    unfold pertSum
    rw [← sum_pairs_univ q1 (f := pairEl L (sides nbr) x (conf c dets[i]) (conf c dets[j]))]
    · clear f1 f2 f3
      induction pairsOf LQ with
      | nil => rfl
      | cons p l ih => rw [List.map_cons, List.sum_cons, List.map_cons, List.sum_cons, ← ih]; rfl
    · intro Q Q' hQ
      unfold pairEl
      refine sum_eq_zero fun q _ => ?_
      rw [hx, secondOrder_zero I _ _ _ _ _ _ _ _ (hQ.imp (q3 Q) (q3 Q')), ite_self]

/-- An exchange of two spins, and an electron that leaves the block: nothing is added. -/
theorem addPerturbator_none (X : BlockCtx E c su dets pos) (nbr : Bool) (thr : K)
    (gs : List K) (en : K) {cPA cPB : Config} {pertA pertB : List Nat} {P : Conf2 c.nsites}
    (hA : Describes cPA pertA P.1) (hB : Describes cPB pertB P.2) {old new : Occ} (hne : new ≠ old) (hold : old ≠ .hole)
    (h1 : ∀ o, (P.1.count o : Int) = c.counts.get o + (if o = new then 1 else 0) - (if o = old then 1 else 0))
    (h2 : ∀ o, (P.2.count o : Int) = c.counts.get o + (if o = old then 1 else 0) - (if o = new then 1 else 0))
    (h : SpMat K) : addPerturbator E I c su nbr thr gs en cPA cPB cPB.counts pertA pertB h = .ok h := by
  have a1 := h1 .hole
  have a2 := h1 .down
  have b1 := h2 .hole
  have b2 := h2 .down
  have b3 := h2 .up
  simp only [Config.counts, Counts.get] at a1 a2 b1 b2 b3
  obtain ⟨pert, e1, e2, e3, e4⟩ := extend_ok I X hA hB (by omega) (by omega)
  have hnaB : su.cB.nalpha = c.nalpha := by unfold Config.nalpha; rw [X.nB, X.hB, X.bB]
  obtain ⟨onB, o1, _, o2⟩ := getIndexesOf_spec E.toSetSem hB.valid (if new = .hole then old else .hole) false
  obtain ⟨onA, o3, _, o4⟩ := getIndexesOf_spec E.toSetSem hA.valid .hole false
  simp only [Bool.false_eq_true, if_false] at o2 o4
  set cR : Config := { su.cE with restr := (E.inter su.cE.restr.2 (onB.map (· + c.nsites)), E.inter su.cE.restr.1 onA) } with hcR
  have hNR : cR.nsites = c.nsites + c.nsites := X.nE
  have hv : ValidDet cR.nsites pert := by rw [hNR]; exact e2
  have hocc : ∀ z < c.nsites + c.nsites, occC cR pert z = Conf2.join P z := by
    intro z hz
    rw [← e3 z hz]
    show occ su.cE.nholes su.cE.nbeta pert z = _
    rw [X.hE, X.bE]
  have r1 : ∀ z ∈ cR.restr.1, z ∈ su.fB ∧ ∃ y, y < c.nsites ∧ occC cPB pertB y = (if new = .hole then old else .hole) ∧ z = c.nsites + y := by
    intro z hz
    have hz : z ∈ E.inter su.cE.restr.2 _ := hz
    rw [E.mem_inter, X.restr, List.mem_map] at hz
    obtain ⟨z1, y, hy, rfl⟩ := hz
    obtain ⟨y1, y2, _⟩ := (o2 y).1 hy
    exact ⟨z1, y, by rw [← hB.sites]; exact y1, y2, Nat.add_comm _ _⟩
  have r2 : ∀ z ∈ cR.restr.2, z ∈ su.fA ∧ z < c.nsites ∧ occC cPA pertA z = .hole := by
    intro z hz
    have hz : z ∈ E.inter su.cE.restr.1 _ := hz
    rw [E.mem_inter, X.restr, o4, hA.sites] at hz
    exact ⟨hz.1, hz.2.1, hz.2.2.1⟩
  have key : ∃ b, reverseInteractions (cPB.nalpha + cPB.nbeta - su.cB.nalpha - su.cB.nbeta) = .ok b ∧
      computeDynamic E cR I b pert = .ok [] ∧
      getIndexesOf E.toSetSem cPB pertB (max (cPB.nalpha + cPB.nbeta - su.cB.nalpha - su.cB.nbeta) 0 *
        (cPB.nalpha - cPB.nbeta - su.cB.nalpha + su.cB.nbeta)) = .ok onB ∧
      getIndexesOf E.toSetSem cPA pertA (min 0 (cPB.nalpha + cPB.nbeta - su.cB.nalpha - su.cB.nbeta) *
        (cPB.nalpha - cPB.nbeta - su.cB.nalpha + su.cB.nbeta)) = .ok onA := by
    by_cases hnew : new = .hole
    · -- an electron leaves the block
      subst hnew
      have dB : cPB.nalpha + cPB.nbeta - su.cB.nalpha - su.cB.nbeta = 1 := by
        unfold Config.nalpha; rw [hB.sites, hB.holes, X.nB, X.hB]; simp [hold.symm] at b1; omega
      have dM : cPB.nalpha - cPB.nbeta - su.cB.nalpha + su.cB.nbeta = old.twice := by
        rw [hB.nalpha, hB.beta, hnaB, X.bB]
        cases old
        · exact absurd rfl hold
        · simp [Occ.twice] at b2 b3 ⊢; omega
        · simp [Occ.twice] at b2 b3 ⊢; omega
      rw [dB, dM]
      simp only [if_true] at o1 r1
      refine ⟨⟨true, false, false, true, true, false⟩, rfl, ?_, by rw [← o1]; congr 1; simp, by rw [← o3]; congr 1; simp [Occ.twice]⟩
      have hnoh : ∀ z ∈ cR.restr.1, z < cR.nsites → occC cR pert z ≠ .hole := by
        intro z hz hlt
        obtain ⟨_, y, y1, y2, rfl⟩ := r1 z hz
        rw [hocc _ (by omega), Conf2.join_right P y1, ← hB.occ y1, y2]; exact hold
      obtain ⟨W, w1, w2, w3, w4⟩ := computeNextHopping_restr E hv (fun a ha m hm b hb' hab ham hmb =>
        ⟨_, X.gE.linear a ha m hm b hb' hab ((X.gE.bond_iff ha hm).1 ham) ((X.gE.bond_iff hm hb').1 hmb) b m a
          (by simpa using (List.reverse_perm [a, m, b]))⟩)
      have hW : W = [] := by
        rw [List.eq_nil_iff_forall_not_mem]
        intro w hw
        obtain ⟨k1, _, k3, _, k5, _⟩ := (w2 w.1).1 (List.mem_map.2 ⟨w, hw, rfl⟩)
        exact hnoh _ k5 k1 k3
      subst hW
      have hsd : computeSD E cR pert = .ok ([], []) := computeSD_nil E hv (fun m hm b hb' hm1 hb1 hmh => by
        obtain ⟨_, z1, z2⟩ := r2 m hm
        exfalso
        apply hmh
        rw [hocc m (by omega), Conf2.join_left P z1, ← hA.occ z1, z2])
      unfold computeDynamic selected
      simp only [if_true, if_false, Bool.false_eq_true]
      refine bind_ok (bind_ok (computeHopping_nil E.toSetSem hv hnoh) rfl) (bind_ok (bind_ok w4 rfl) (bind_ok rfl (bind_ok (bind_ok hsd rfl) ?_)))
      rfl
    · -- two spins
      have dB : cPB.nalpha + cPB.nbeta - su.cB.nalpha - su.cB.nbeta = 0 := by
        unfold Config.nalpha; rw [hB.sites, hB.holes, X.nB, X.hB]; simp [Ne.symm hold, Ne.symm hnew] at b1; omega
      rw [dB]
      rw [if_neg hnew] at o1
      refine ⟨⟨false, false, true, false, false, false⟩, rfl, ?_, by rw [← o1]; congr 1; simp [Occ.twice], by rw [← o3]; congr 1; simp [Occ.twice]⟩
      unfold computeDynamic selected
      simp only [if_true, if_false, Bool.false_eq_true]
      refine bind_ok rfl (bind_ok rfl (bind_ok (bind_ok (computeFlip_nil E.toSetSem pert (fun i hi j hj => ?_)) rfl) (bind_ok rfl rfl)))
      obtain ⟨_, y, _, _, rfl⟩ := r1 i hi
      obtain ⟨_, z1, _⟩ := r2 j hj
      omega
  obtain ⟨b, k1, k2, k3, k4⟩ := key
  unfold addPerturbator
  exact bind_ok e1 (bind_ok e4 (bind_ok k3 (bind_ok k4 (bind_ok k1 (bind_ok k2 rfl)))))

end

end

end TJ
