/-
C21: the collinearity test on relabelled lattices (type 'clusters').
-/
import Verif.Lemmas.Clusters
import Verif.Props.Lattice
import Mathlib.Analysis.Real.Sqrt
import Mathlib.Tactic.IntervalCases

namespace TJ

open Matrix

section

variable {K : Type} [Field K] [LinearOrder K] [IsStrictOrderedRing K]

theorem ClustersConf.grid {c : Config} {P : NdMat} {π : Nat → Nat} (h : ClustersConf c P π) :
    1 ≤ c.nbh * c.nblocs ∧ c.nsites = (c.nbh * c.nblocs) * (c.nbv * c.nblocs) ∧ P.rows = (c.nbh * c.nblocs) * (c.nbv * c.nblocs) ∧
      (∀ i < c.nsites, ∀ j < c.nsites, P.e i j = nnInd (gridPos (c.nbh * c.nblocs)) i j) := by
  obtain ⟨m, a1, a2, a3, a4⟩ := rect_eq c.nbh c.nbv c.nblocs h.hh h.hv h.hb
  rw [h.periodic] at a1
  obtain rfl := Except.ok.inj a1
  have := h.size.trans a2
  exact ⟨Nat.mul_pos h.hh h.hb, this, a2, by rw [this]; exact a4⟩

theorem ClustersConf.entries {c : Config} {P : NdMat} {π : Nat → Nat} (h : ClustersConf c P π) :
    ∀ i < c.nsites, ∀ j < c.nsites, c.bond.e i j = 0 ∨ c.bond.e i j = 1 := by
  intro i hi j hj
  rw [h.bond i hi j hj, h.grid.2.2.2 _ (h.lt i hi) _ (h.lt j hj)]
  unfold nnInd
  split_ifs
  · exact Or.inr rfl
  · exact Or.inl rfl

/-- C21, first clause. Whatever orthonormal eigenvectors `eigh` returns, every sign choice accepted by the search is, once
rounded, the matrix of a relabelling of the sites that maps the bond matrix to the row by row one. `rnd` is any rounding whose
precision is good enough for the number of sites. -/
theorem C21_accepted_relabels (c : Config) (P : NdMat) (π : Nat → Nat) (h : ClustersConf c P π) (rnd : K → K) (ε : K)
    (hr : Rounds rnd ε) (hε : 3 * (c.nsites : K) ^ 2 * ε < 1) (U W : Nat → Nat → K) (d d' : Nat → K)
    (hU : EighOf c.nsites c.bond.e U d) (hW : EighOf c.nsites P.e W d') (s : List Int) (hs : s ∈ signVectors c.nsites)
    (ha : acceptedTransfer rnd c.nsites (transferMatrix c.nsites W U s) = true) :
    ∃ σ : Nat → Nat, (∀ i < c.nsites, σ i < c.nsites) ∧ (∀ i < c.nsites, ∀ j < c.nsites, σ i = σ j → i = j) ∧
      (∀ i < c.nsites, ∀ j < c.nsites, rnd (transferMatrix c.nsites W U s i j) = 1 ↔ i = σ j) ∧
      (∀ i < c.nsites, ∀ j < c.nsites, P.e (σ i) (σ j) = c.bond.e i j) :=
  accepted_relabels hr hε hU hW h.lt h.inj h.bond h.entries hs ha

/-- When the test of `is_bond_linear` uses a relabelling of the sites that maps the bond matrix to the row by row one, the
configuration is a lattice of the plane for the positions of the row by row numbering. -/
theorem relabelled_geom (E : Env) (c : Config) (P : NdMat) (π : Nat → Nat) (h : ClustersConf c P π) (σ : Nat → Nat)
    (q1 : ∀ i < c.nsites, σ i < c.nsites) (q2 : ∀ i < c.nsites, ∀ j < c.nsites, σ i = σ j → i = j)
    (q3 : ∀ i < c.nsites, ∀ j < c.nsites, E.transferIsOne c.bond P i j = true ↔ i = σ j)
    (q4 : ∀ i < c.nsites, ∀ j < c.nsites, P.e (σ i) (σ j) = c.bond.e i j) :
    GeomLattice E c (fun s => gridPos (c.nbh * c.nblocs) (π s)) := by
  obtain ⟨hW1, hn, hP, hPe⟩ := h.grid
  have hnearP : ∀ i < c.nsites, ∀ j < c.nsites, (Near (gridPos (c.nbh * c.nblocs) i) (gridPos (c.nbh * c.nblocs) j) ↔ P.e i j = 1) := by
    intro i hi j hj
    rw [hPe i hi j hj]
    unfold nnInd
    split_ifs with k <;> simp [k]
  have hbond : ∀ i < c.nsites, ∀ j < c.nsites, c.bond.e i j = nnInd (fun s => gridPos (c.nbh * c.nblocs) (π s)) i j := by
    intro i hi j hj
    rw [h.bond i hi j hj, hPe _ (h.lt i hi) _ (h.lt j hj)]
    rfl
  have hsurj : ∀ k < c.nsites, ∃ i < c.nsites, π i = k := by
    intro k hk
    let f : Fin c.nsites → Fin c.nsites := fun i => ⟨π i, h.lt i i.2⟩
    have hf : Function.Injective f := fun i j e => Fin.ext (h.inj i i.2 j j.2 (Fin.ext_iff.1 e))
    obtain ⟨i, hi⟩ := Finite.injective_iff_surjective.1 hf ⟨k, hk⟩
    exact ⟨i, i.2, Fin.ext_iff.1 hi⟩
  have hfind : ∀ s < c.nsites,
      pyGet ((List.range c.nsites).filter (fun row => E.transferIsOne c.bond P row s)) 0 = .ok (σ s) := by
    intro s hs
    have hf : ((List.range c.nsites).filter (fun row => E.transferIsOne c.bond P row s)) =
        (List.range c.nsites).filter (fun row => row = σ s) := by
      apply List.filter_congr
      intro row hrow
      rw [List.mem_range] at hrow
      rw [Bool.eq_iff_iff, decide_eq_true_eq]
      exact q3 row hrow s hs
    rw [hf]
    have hlen : (List.range c.nsites).filter (fun row => row = σ s) = [σ s] := by
      apply (List.perm_singleton).1
      refine (List.perm_ext_iff_of_nodup (List.nodup_range.filter _) (List.nodup_singleton _)).2 ?_
      intro x
      simp only [List.mem_filter, List.mem_range, decide_eq_true_eq, List.mem_singleton]
      constructor
      · exact fun k => k.2
      · rintro rfl
        exact ⟨q1 s hs, rfl⟩
    rw [hlen]
    rfl
  refine ⟨?_, hbond, ?_, ?_⟩
  · intro i hi j hj e
    exact h.inj i hi j hj (gridPos_inj e)
  · intro a ha m hm b hb hab h1 h2 s1 s2 s3 hp
    have hpath := pathIn_of_near hbond ha hm hb hab h1 h2
    have hpro := prologue_any hpath hp
    unfold isBondLinear
    rw [h.ltype]
    refine bind_ok hpro (bind_ok h.periodic ?_)
    have hmin : min a b < c.nsites := by omega
    have hmax : max a b < c.nsites := by omega
    refine bind_ok (hfind _ hmin) (bind_ok (hfind _ hm) (bind_ok (hfind _ hmax) ?_))
    have hσab : σ a ≠ σ b := fun e => hab (q2 a ha b hb e)
    have n1 : Near (gridPos (c.nbh * c.nblocs) (σ a)) (gridPos (c.nbh * c.nblocs) (σ m)) := by
      rw [hnearP _ (q1 a ha) _ (q1 m hm), q4 a ha m hm, h.bond a ha m hm, ← hnearP _ (h.lt a ha) _ (h.lt m hm)]
      exact h1
    have n2 : Near (gridPos (c.nbh * c.nblocs) (σ m)) (gridPos (c.nbh * c.nblocs) (σ b)) := by
      rw [hnearP _ (q1 m hm) _ (q1 b hb), q4 m hm b hb, h.bond m hm b hb, ← hnearP _ (h.lt m hm) _ (h.lt b hb)]
      exact h2
    have hperm : [σ (min a b), σ m, σ (max a b)].Perm [σ a, σ m, σ b] := by
      rcases Nat.le_total a b with k | k
      · rw [Nat.min_eq_left k, Nat.max_eq_right k]
      · rw [Nat.min_eq_right k, Nat.max_eq_left k]
        exact ((List.Perm.swap _ _ _).trans ((List.Perm.swap _ _ _).cons _)).trans (List.Perm.swap _ _ _)
    have hPb : ∀ i < P.rows, ∀ j < P.rows, P.e i j = nnInd (gridPos (c.nbh * c.nblocs)) i j := by
      rw [← h.size]; exact hPe
    rw [periodic_linear hPb (h.size ▸ q1 a ha) (h.size ▸ q1 m hm) (h.size ▸ q1 b hb) hσab n1 n2 hperm]
    congr 1
    rw [decide_eq_decide]
    -- the relabelling of the grid `π i ↦ σ i`
    choose! τ t1 t2 using hsurj
    have ht : ∀ i < c.nsites, τ (π i) = i := fun i hi => h.inj _ (t1 _ (h.lt i hi)) i hi (t2 _ (h.lt i hi))
    have key := aligned_relabel (H := c.nbv * c.nblocs) hW1 (σ := fun k => σ (τ k)) (a := π a) (m := π m) (b := π b)
      (by rw [← hn]; exact fun i hi => q1 _ (t1 i hi))
      (by
        rw [← hn]
        intro i hi j hj e
        have := q2 _ (t1 i hi) _ (t1 j hj) e
        rw [← t2 i hi, ← t2 j hj, this])
      (by
        rw [← hn]
        intro i hi j hj
        rw [hnearP _ (q1 _ (t1 i hi)) _ (q1 _ (t1 j hj)), q4 _ (t1 i hi) _ (t1 j hj), h.bond _ (t1 i hi) _ (t1 j hj),
          t2 i hi, t2 j hj, hnearP i hi j hj])
      (hn ▸ h.lt a ha) (hn ▸ h.lt m hm) (hn ▸ h.lt b hb) (fun e => hab (h.inj a ha b hb e)) h1 h2
    simp only [ht a ha, ht m hm, ht b hb] at key
    exact key
  · intro a ha b hb hd
    have hc : RectConf { c with bond := P, ltype := .periodic } c.nbh c.nbv c.nblocs := ⟨h.hh, h.hv, h.hb, rfl, h.periodic⟩
    have hsz : ({ c with bond := P, ltype := .periodic } : Config).nsites = c.nsites := h.size.symm
    obtain ⟨k, hk, k1, k2⟩ := (hc.geom E).tile (π a) (by rw [hsz]; exact h.lt a ha) (π b)
      (by rw [hsz]; exact h.lt b hb) hd
    rw [hsz] at hk
    obtain ⟨i, hi, rfl⟩ := hsurj k hk
    exact ⟨i, hi, k1, k2⟩

/-- C21, second clause. When the search accepts a sign choice, the answers of `is_bond_linear` are geometric: the configuration is
a lattice of the plane for the positions of the row by row numbering, whichever relabelling was accepted. -/
theorem C21_collinear (S : SetSem) (c : Config) (P : NdMat) (π : Nat → Nat) (h : ClustersConf c P π) (rnd : K → K) (ε : K)
    (hr : Rounds rnd ε) (hε : 3 * (c.nsites : K) ^ 2 * ε < 1) (eigh : NdMat → Nat → Nat → K) (d d' : Nat → K)
    (hU : EighOf c.nsites c.bond.e (eigh c.bond) d) (hW : EighOf c.nsites P.e (eigh P) d')
    (hacc : ∃ s ∈ signVectors c.nsites,
      acceptedTransfer rnd c.nsites (transferMatrix c.nsites (eigh P) (eigh c.bond) s) = true) :
    GeomLattice (clusterEnv S rnd eigh) c (fun s => gridPos (c.nbh * c.nblocs) (π s)) := by
  obtain ⟨s, hs, ha, hsearch⟩ := search_accepted (last := fun _ _ => (0 : K)) hacc
  obtain ⟨σ, q1, q2, q3, q4⟩ := C21_accepted_relabels c P π h rnd ε hr hε _ _ d d' hU hW s hs ha
  refine relabelled_geom _ c P π h σ q1 q2 ?_ q4
  intro row hrow s' hs'
  show decide (rnd (transferSearch rnd c.bond.rows (eigh P) (eigh c.bond) (signVectors c.bond.rows) (fun _ _ => 0) row s') = 1) = true ↔ _
  rw [decide_eq_true_eq]
  have := congrFun (congrFun hsearch row) s'
  unfold Config.nsites at this
  rw [this]
  exact q3 row hrow s' hs'

/-- C21, when does the search succeed? If the eigenvalues of the bond matrix are pairwise different and the relabelling keeps site 0,
some sign choice is accepted. -/
theorem C21_simple_spectrum (c : Config) (P : NdMat) (π : Nat → Nat) (h : ClustersConf c P π) (h0 : π 0 = 0) (rnd : K → K)
    (hr0 : rnd 0 = 0) (hr1 : rnd 1 = 1) (U W : Nat → Nat → K) (d d' : Nat → K)
    (hU : EighOf c.nsites c.bond.e U d) (hW : EighOf c.nsites P.e W d')
    (hd : ∀ k < c.nsites, ∀ l < c.nsites, d k = d l → k = l) :
    ∃ s ∈ signVectors c.nsites, acceptedTransfer rnd c.nsites (transferMatrix c.nsites W U s) = true := by
  obtain ⟨hW1, hn, _, _⟩ := h.grid
  have hv : 1 ≤ c.nbv * c.nblocs := Nat.mul_pos h.hv h.hb
  have hpos : 0 < c.nsites := by rw [hn]; exact Nat.mul_pos hW1 hv
  obtain ⟨s, hs, ht⟩ := simple_transfer hU hW h.lt h.inj h.bond hd
  refine ⟨s, hs, acceptedTransfer_iff.2 ⟨?_, ?_⟩⟩
  · rw [ht 0 hpos 0 hpos, h0, if_pos rfl, hr1]
  · intro i hi j hj
    rw [ht i hi j hj]
    split_ifs
    · exact Or.inr hr1
    · exact Or.inl hr0

/-- The rounding of the code, `round(x, 10)`, has precision `10^-10 / 2`: enough for tens of thousands of sites. -/
theorem round_rounds [FloorRing K] : Rounds (fun x : K => (round (x * 10 ^ 10) : K) / 10 ^ 10) (1 / (2 * 10 ^ 10)) := by
  have hp : (0 : K) < 10 ^ 10 := by positivity
  refine ⟨by simp, ?_, ?_, ?_⟩
  · have : round ((1 : K) * 10 ^ 10) = 10 ^ 10 := by
      rw [one_mul, show ((10 : K) ^ 10) = ((10 ^ 10 : Int) : K) by norm_num, round_intCast]
    show ((round ((1 : K) * 10 ^ 10) : Int) : K) / 10 ^ 10 = 1
    rw [this]
    norm_num
  · intro x hx
    have h1 := abs_sub_round (x * 10 ^ 10)
    have h2 : ((round (x * 10 ^ 10) : Int) : K) = 0 := by
      rcases div_eq_zero_iff.1 hx with h | h
      · exact h
      · exact absurd h hp.ne'
    rw [h2, sub_zero, abs_mul, abs_of_pos hp] at h1
    rw [le_div_iff₀ (by positivity)]
    linarith
  · intro x hx
    have h1 := abs_sub_round (x * 10 ^ 10)
    have h2 : ((round (x * 10 ^ 10) : Int) : K) = 10 ^ 10 := by
      rw [div_eq_one_iff_eq hp.ne'] at hx
      exact hx
    rw [h2, show x * 10 ^ 10 - 10 ^ 10 = (x - 1) * 10 ^ 10 by ring, abs_mul, abs_of_pos hp] at h1
    rw [le_div_iff₀ (by positivity)]
    linarith

end

/-! ### Two blocks side by side -/

theorem relabelTwo_pos {W H : Nat} : ∀ i < 2 * (W * H), gridPos (2 * W) (relabelTwo W H i) = twoPos W H i := by
  intro i hi
  have hW : 0 < W := by
    rcases Nat.eq_zero_or_pos W with rfl | h
    · simp at hi
    · exact h
  have key : ∀ x y, x < 2 * W → gridPos (2 * W) (2 * W * y + x) = ((x : Int), (y : Int)) := by
    intro x y hx
    obtain ⟨q1, q2⟩ := (eq_iff_divmod (i := 2 * W * y + x) hx).1 rfl
    unfold gridPos
    rw [q1, q2]
  unfold relabelTwo twoPos
  by_cases k : i < W * H
  · rw [if_pos k, if_pos k]
    have := Nat.mod_lt i hW
    exact key (i % W) (i / W) (by omega)
  · rw [if_neg k, if_neg k]
    have := Nat.mod_lt (i - W * H) hW
    rw [Nat.add_assoc, key (W + (i - W * H) % W) ((i - W * H) / W) (by omega)]
    unfold gridPos
    simp only [Prod.mk.injEq, and_true]
    push_cast
    omega

/-- The configurations on which `embedding_blocks` calls the test are of this kind: two blocks side by side, numbered block by
block. -/
theorem C21_two_blocks (c : Config) (nbh : Nat) (hh : 1 ≤ nbh) (hv : 1 ≤ c.nbv) (hb : 1 ≤ c.nblocs) (hn : c.nbh = 2 * nbh)
    (ht : c.ltype = .clusters) (hbond : buildBondMatrixBlockEmbedding nbh c.nbv c.nblocs = .ok c.bond) :
    ∃ P, ClustersConf c P (relabelTwo (nbh * c.nblocs) (c.nbv * c.nblocs)) ∧ relabelTwo (nbh * c.nblocs) (c.nbv * c.nblocs) 0 = 0 ∧
      ∀ i < c.nsites, gridPos (c.nbh * c.nblocs) (relabelTwo (nbh * c.nblocs) (c.nbv * c.nblocs) i) =
        twoPos (nbh * c.nblocs) (c.nbv * c.nblocs) i := by
  obtain ⟨m, r, a1, a2, a3, a4, a5, a6⟩ := C16_relabelled nbh c.nbv c.nblocs hh hv hb
  obtain ⟨m', b1, b2, _⟩ := C16_two_blocks nbh c.nbv c.nblocs hh hv hb
  rw [hbond] at a1 b1
  obtain rfl := Except.ok.inj a1
  obtain rfl := Except.ok.inj b1
  refine ⟨r, ⟨by omega, hv, hb, ht, by rw [hn]; exact a2, a3, a4, a5, a6⟩, ?_, ?_⟩
  · unfold relabelTwo
    rw [if_pos (Nat.mul_pos (Nat.mul_pos hh hb) (Nat.mul_pos hv hb))]
    simp
  · intro i hi
    rw [hn, Nat.mul_assoc]
    apply relabelTwo_pos
    have : c.nsites = c.bond.rows := rfl
    rw [this, b2] at hi
    have e : nbh * c.nbv * c.nblocs ^ 2 = nbh * c.nblocs * (c.nbv * c.nblocs) := by ring
    omega

/-! ### Examples and the degenerate case -/

/-- The matrix with the given rows. -/
def rowsMat (l : List (List Int)) : NdMat := ⟨l.length, l.length, fun i j => (l.getD i []).getD j 0⟩

/-- The 2 x 2 lattice with sites 1 and 3 exchanged: 0 is bonded to 2 and 3, 1 to 2 and 3. -/
def crossed : Config := ⟨rowsMat [[0, 0, 1, 1], [0, 0, 1, 1], [1, 1, 0, 0], [1, 1, 0, 0]], 0, 2, ([], []), .clusters, 2, 2, 1⟩

/-- The bond matrix of the 2 x 2 lattice, row by row. -/
def square : NdMat := (buildRectangularBondMatrix 2 2 1).toOption.getD (NdMat.zeros 0 0)

theorem square_ok : buildRectangularBondMatrix 2 2 1 = .ok square := by
  obtain ⟨m, h, _⟩ := rect_eq 2 2 1 (by decide) (by decide) (by decide)
  unfold square
  rw [h]
  rfl

/-- The relabelling: 1 and 3 are exchanged. -/
def swap13 (i : Nat) : Nat := [0, 3, 2, 1].getD i 0

theorem crossed_conf : ClustersConf crossed square swap13 := by
  refine ⟨by decide, by decide, by decide, rfl, square_ok, by decide, by decide, by decide, by decide +kernel⟩

/-- Orthonormal eigenvectors (columns) of the 2 x 2 lattice; the eigenvalues are -2, 0, 0, 2. -/
def squareVects (i k : Nat) : ℚ :=
  ([[1/2, 1/2, 1/2, 1/2], [-1/2, 1/2, -1/2, 1/2], [-1/2, -1/2, 1/2, 1/2], [1/2, -1/2, -1/2, 1/2]].getD i []).getD k 0

/-- The eigenvalues. -/
def squareVals (k : Nat) : ℚ := [-2, 0, 0, 2].getD k 0

/-- Other orthonormal eigenvectors, of the crossed lattice: those of the eigenvalue 0 are turned. -/
def turnedVects (i k : Nat) : ℚ :=
  ([[1/2, 7/10, -1/10, 1/2], [1/2, -7/10, 1/10, 1/2], [-1/2, -1/10, -7/10, 1/2], [-1/2, 1/10, 7/10, 1/2]].getD i []).getD k 0

/-- An exact `eigh` for the two matrices, with matching eigenvectors. -/
def goodEigh (A : NdMat) : Nat → Nat → ℚ := if A.e 0 1 = 1 then squareVects else fun i => squareVects (swap13 i)

/-- An exact `eigh` for the two matrices, whose eigenvectors of the eigenvalue 0 do not match. -/
def badEigh (A : NdMat) : Nat → Nat → ℚ := if A.e 0 1 = 1 then squareVects else turnedVects

theorem square_e : square.e 0 1 = 1 := by decide +kernel

theorem crossed_e : ¬ crossed.bond.e 0 1 = 1 := by decide +kernel

theorem goodEigh_square : EighOf 4 square.e (goodEigh square) squareVals := by
  unfold goodEigh
  rw [if_pos square_e]
  exact ⟨by decide +kernel, by decide +kernel, by decide +kernel⟩

theorem goodEigh_crossed : EighOf 4 crossed.bond.e (goodEigh crossed.bond) squareVals := by
  unfold goodEigh
  rw [if_neg crossed_e]
  exact ⟨by decide +kernel, by decide +kernel, by decide +kernel⟩

theorem badEigh_crossed : EighOf 4 crossed.bond.e (badEigh crossed.bond) squareVals := by
  unfold badEigh
  rw [if_neg crossed_e]
  exact ⟨by decide +kernel, by decide +kernel, by decide +kernel⟩

theorem good_accepted : acceptedTransfer (id : ℚ → ℚ) 4 (transferMatrix 4 (goodEigh square) (goodEigh crossed.bond) [1, 1, 1, 1]) = true := by
  decide +kernel

theorem id_rounds : Rounds (id : ℚ → ℚ) 0 := ⟨rfl, rfl, fun x h => by simp [show x = 0 from h], fun x h => by simp [show x = 1 from h]⟩

/-- The hypotheses of `C21_accepted_relabels` and `C21_collinear` are met on the crossed lattice, and `is_bond_linear` answers. -/
example : GeomLattice (clusterEnv SetSem.sorted id goodEigh) crossed (fun s => gridPos 2 (swap13 s)) :=
  C21_collinear SetSem.sorted crossed square swap13 crossed_conf id 0 id_rounds (by simp) goodEigh squareVals squareVals
    goodEigh_crossed goodEigh_square ⟨[1, 1, 1, 1], by decide, good_accepted⟩

example : ∃ σ : Nat → Nat, ∀ i < 4, ∀ j < 4, square.e (σ i) (σ j) = crossed.bond.e i j := by
  obtain ⟨σ, _, _, _, h⟩ := C21_accepted_relabels crossed square swap13 crossed_conf id 0 id_rounds (by simp) _ _ squareVals squareVals
    goodEigh_crossed goodEigh_square [1, 1, 1, 1] (by decide) good_accepted
  exact ⟨σ, h⟩

example : isBondLinear (clusterEnv SetSem.sorted (id : ℚ → ℚ) goodEigh) crossed 0 2 1 = .ok false := by decide +kernel

/-- A row of four sites numbered 0, 2, 1, 3: a relabelled lattice on which some triples are collinear. -/
example : (ClustersConf ⟨rowsMat [[0, 0, 1, 0], [0, 0, 1, 1], [1, 1, 0, 0], [0, 1, 0, 0]], 0, 2, ([], []), .clusters, 4, 1, 1⟩
    ((buildRectangularBondMatrix 4 1 1).toOption.getD (NdMat.zeros 0 0)) (fun i => [0, 2, 1, 3].getD i 0)) := by
  refine ⟨by decide, by decide, by decide, rfl, ?_, by decide, by decide, by decide, by decide +kernel⟩
  obtain ⟨m, h, _⟩ := rect_eq 4 1 1 (by decide) (by decide) (by decide)
  rw [h]
  rfl

/-- C21, the degenerate case: the eigenvectors of a multiple eigenvalue need not match, then no sign choice is accepted and the
test raises an error on every path, for every rounding of precision better than one tenth. (For a bond matrix with equal
eigenvalues exact `eigh` may return such eigenvectors; the first two clauses then do not apply.) -/
theorem C21_degenerate_fails (S : SetSem) (rnd : ℚ → ℚ) (ε : ℚ) (hr : Rounds rnd ε) (hε : ε < 1 / 10) :
    EighOf 4 crossed.bond.e (badEigh crossed.bond) squareVals ∧ EighOf 4 square.e (badEigh square) squareVals ∧
    (∀ s ∈ signVectors 4, acceptedTransfer rnd 4 (transferMatrix 4 (badEigh square) (badEigh crossed.bond) s) = false) ∧
    isBondLinear (clusterEnv S rnd badEigh) crossed 0 2 1 = .error .indexError := by
  have hsmall : ∀ s ∈ signVectors 4, ∀ i < 4, ∀ j < 4, |transferMatrix 4 (badEigh square) (badEigh crossed.bond) s i j| ≤ 9 / 10 := by
    decide +kernel
  have hne : ∀ s ∈ signVectors 4, ∀ i < 4, ∀ j < 4, rnd (transferMatrix 4 (badEigh square) (badEigh crossed.bond) s i j) ≠ 1 := by
    intro s hs i hi j hj h
    have a := abs_le.1 (hr.ofOne _ h)
    have b := abs_le.1 (hsmall s hs i hi j hj)
    linarith [a.1, b.2]
  have hrej : ∀ s ∈ signVectors 4, acceptedTransfer rnd 4 (transferMatrix 4 (badEigh square) (badEigh crossed.bond) s) = false := by
    intro s hs
    rw [← Bool.not_eq_true, acceptedTransfer_iff]
    exact fun h => hne s hs 0 (by decide) 0 (by decide) h.1
  refine ⟨badEigh_crossed, ?_, hrej, ?_⟩
  · have e : badEigh square = goodEigh square := by
      unfold badEigh goodEigh
      rw [if_pos square_e, if_pos square_e]
    rw [e]
    exact goodEigh_square
  · obtain ⟨l, hl⟩ := signVectors_last 4
    have hlast : List.replicate 4 (-1) ∈ signVectors 4 := by rw [hl]; simp
    have hsearch : transferSearch rnd 4 (badEigh square) (badEigh crossed.bond) (signVectors 4) (fun _ _ => 0) =
        transferMatrix 4 (badEigh square) (badEigh crossed.bond) (List.replicate 4 (-1)) := by
      rw [hl]
      exact search_none (by rw [← hl]; exact hrej)
    unfold isBondLinear
    rw [show crossed.ltype = .clusters from rfl]
    refine (bind_ok (show linearPrologue crossed.bond 0 2 1 = .ok (0, 2, 1) by decide) (bind_ok (show buildRectangularBondMatrix crossed.nbh crossed.nbv crossed.nblocs = .ok square from square_ok) rfl)).trans ?_
    have : (List.range crossed.nsites).filter (fun row => (clusterEnv S rnd badEigh).transferIsOne crossed.bond square row 0) = [] := by
      rw [List.filter_eq_nil_iff]
      intro row hrow
      have hrow' : row < 4 := List.mem_range.1 hrow
      show ¬ decide (rnd (transferSearch rnd 4 (badEigh square) (badEigh crossed.bond) (signVectors 4) (fun _ _ => 0) row 0) = 1) = true
      rw [hsearch, decide_eq_true_eq]
      exact hne _ hlast row hrow' 0 (by decide)
    dsimp only
    rw [this]
    rfl

/-- Two blocks of 1 x 2 sites side by side meet the hypotheses of `C21_two_blocks`. -/
example (m : NdMat) (h : buildBondMatrixBlockEmbedding 1 2 1 = .ok m) :
    ∃ P, ClustersConf ⟨m, 0, 2, ([], []), .clusters, 2, 2, 1⟩ P (relabelTwo 1 2) := by
  obtain ⟨P, hP, _⟩ := C21_two_blocks ⟨m, 0, 2, ([], []), .clusters, 2, 2, 1⟩ 1 (Nat.le_refl 1) (show 1 ≤ 2 by decide) (Nat.le_refl 1) rfl rfl h
  exact ⟨P, hP⟩

/-- Two sites: the eigenvalues are -1 and 1. -/
def pair : Config := ⟨rowsMat [[0, 1], [1, 0]], 0, 1, ([], []), .clusters, 2, 1, 1⟩

/-- Eigenvectors of two sites. -/
noncomputable def pairVects (i k : Nat) : ℝ := if i = 1 ∧ k = 0 then -(Real.sqrt 2 / 2) else Real.sqrt 2 / 2

theorem pair_eigh : EighOf 2 pair.bond.e pairVects (fun k => 2 * (k : ℝ) - 1) := by
  have h2 : Real.sqrt 2 * Real.sqrt 2 = 2 := Real.mul_self_sqrt (by norm_num)
  refine ⟨?_, ?_, ?_⟩
  · intro i hi j hj
    rw [Finset.sum_range_succ, Finset.sum_range_succ, Finset.sum_range_zero]
    interval_cases i <;> interval_cases j <;> norm_num [pairVects] <;> nlinarith
  · intro i hi j hj
    rw [Finset.sum_range_succ, Finset.sum_range_succ, Finset.sum_range_zero]
    interval_cases i <;> interval_cases j <;> norm_num [pairVects, pair, rowsMat] <;> nlinarith
  · intro k _ l _ h
    have : (k : ℝ) ≤ (l : ℝ) := by exact_mod_cast h
    linarith

/-- The hypotheses of `C21_simple_spectrum` are met on two sites. -/
example : ∃ s ∈ signVectors 2, acceptedTransfer (fun x : ℝ => x) 2 (transferMatrix 2 pairVects pairVects s) = true := by
  have hP : buildRectangularBondMatrix 2 1 1 = .ok ((buildRectangularBondMatrix 2 1 1).toOption.getD (NdMat.zeros 0 0)) := by
    obtain ⟨m, h, _⟩ := rect_eq 2 1 1 (by decide) (by decide) (by decide)
    rw [h]
    rfl
  have hc : ClustersConf pair ((buildRectangularBondMatrix 2 1 1).toOption.getD (NdMat.zeros 0 0)) id :=
    ⟨by decide, by decide, by decide, rfl, hP, by decide, fun i h => h, fun i _ j _ h => h, by decide +kernel⟩
  refine C21_simple_spectrum pair _ id hc rfl (fun x => x) rfl rfl pairVects pairVects (fun k => 2 * (k : ℝ) - 1) (fun k => 2 * (k : ℝ) - 1) pair_eigh
    ⟨pair_eigh.orth, ?_, pair_eigh.asc⟩ ?_
  · intro i hi j hj
    exact (congrArg _ (hc.bond i hi j hj).symm).trans (pair_eigh.diag i hi j hj)
  · intro k _ l _ h
    have : (k : ℝ) = (l : ℝ) := by linarith
    exact_mod_cast this

end TJ
