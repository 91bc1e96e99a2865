import Verif.Model.MainRun
import Verif.Props.Sweep
import Verif.Props.Csr
import Verif.Props.Files
import Verif.Props.Observables
import Verif.Props.EmbeddingTotal
import Verif.Props.Embedding4
import Verif.Props.Initial

open Finset Matrix

namespace TJ

/-! ### C117 -/

theorem toCoo_entry {K : Type} [AddCommMonoid K] (M : Csr K) (d : Nat) {i : Nat} (hi : i < d) (j : Nat) : (M.toCoo d).entry i j = M.entry i j := by
  unfold SpMat.entry Csr.toCoo Csr.entry
  dsimp only
  have key : ∀ l : List Nat, l.Nodup →
      (((l.flatMap fun i => (M.row i).map fun p => (p.2, i, p.1)).filter (fun p => p.2.1 = i ∧ p.2.2 = j)).map (fun p => p.1)).sum =
        if i ∈ l then (((M.row i).filter (fun p => p.1 = j)).map (·.2)).sum else 0 := by
    intro l
    induction l with
    | nil => intro _; rfl
    | cons a l ih =>
      intro hl
      rw [List.nodup_cons] at hl
      rw [List.flatMap_cons, List.filter_append, List.map_append, List.sum_append, ih hl.2, List.filter_map, List.map_map]
      by_cases ha : a = i
      · subst ha
        rw [if_neg hl.1, if_pos (by simp), add_zero]
        congr 1
        simp only [Function.comp_def, true_and]
      · have h0 : (List.filter ((fun p : K × Nat × Nat => decide (p.2.1 = i ∧ p.2.2 = j)) ∘ fun p : Nat × K => (p.2, a, p.1)) (M.row a)) = [] := by
          rw [List.filter_eq_nil_iff]
          intro p _
          simp [ha]
        rw [h0]
        simp [Ne.symm ha]
  rw [key _ List.nodup_range, if_pos (List.mem_range.2 hi)]

theorem toCoo_bounds {K : Type} (M : Csr K) (d : Nat) (h : ∀ i < d, ∀ p ∈ M.row i, p.1 < d) :
    ∀ t ∈ (M.toCoo d).coo, t.2.1 < (M.toCoo d).dim ∧ t.2.2 < (M.toCoo d).dim := by
  intro t ht
  obtain ⟨i, hi, ht⟩ := List.mem_flatMap.1 ht
  obtain ⟨p, hp, rfl⟩ := List.mem_map.1 ht
  exact ⟨List.mem_range.1 hi, h i (List.mem_range.1 hi) p hp⟩

theorem firstColumn_rowsOf {K : Type} [Zero K] {n : Nat} (hn : 1 ≤ n) (v : List K) (rest : List (List K)) (hv : v.length = n) :
    firstColumn (rowsOf n (v :: rest)) = .ok v := by
  unfold firstColumn rowsOf
  rw [if_neg (by simp; omega)]
  rw [mapM_map_ok (fun i => (v :: rest).map (fun v => v.getD i 0)) (fun r => pyGet r 0) (fun i => v.getD i 0) (fun i => rfl)]
  congr 1
  refine List.ext_getElem (by simp [hv]) fun i h1 h2 => ?_
  rw [List.getElem_map, List.getElem_range, List.getD_eq_getElem _ _ h2]

theorem firstColumn_ofFn {K : Type} {n : Nat} (hn : 1 ≤ n) (v : Fin n → K) (rest : List (Fin n → K)) :
    firstColumn (List.ofFn (fun i => (v :: rest).map (fun v => v i))) = .ok (List.ofFn v) := by
  unfold firstColumn
  rw [if_neg (by rw [List.ofFn_eq_nil_iff]; omega), List.ofFn_eq_map, 
    mapM_map_ok (fun i => (v :: rest).map (fun v => v i)) (fun r => pyGet r 0) (fun i => v i) (fun i => rfl), List.ofFn_eq_map]

/-- The picture of a lattice: one line per row and one between two rows, the symbol of site `(x, y)` in line `2 (H - 1 - y)` and column `3 x`. -/
def PictureOf (W H nholes nbeta : Nat) (det : List Nat) (text : List Char) : Prop :=
  ∃ lines, IsText text lines ∧ lines.length = 2 * H - 1 ∧
    ∀ x y, x < W → y < H → charAt lines (2 * (H - 1 - y)) (3 * x) = some (occ nholes nbeta det (y * W + x)).arrow

/-- What the report on the embedded block `c` should contain: the energy of a normalised state `v` in the field of a border whose sites are
occupied with some probabilities, and the largest coefficients of `v` in decreasing order with pictures of their determinants. -/
structure GoodReport (I : Interactions ℝ) (B : BoolInteractions) (c : Config) (dets : List (List Nat)) (nbDet : Nat) (rep : MainReport ℝ) (v : List ℝ) : Prop where
  len : v.length = dets.length
  norm : ∑ i ∈ range dets.length, v.getD i 0 ^ 2 = 1
  energy : ∃ p f, IsLaw p (2 * (c.nbh + c.nbv) * c.nblocs) f ∧
    ∑ i ∈ range dets.length, ∑ j ∈ range dets.length, v.getD i 0 *
      (hamEl I (fun s => gridPos (c.nbh * c.nblocs) s) B (conf c (dets.getD i [])) (conf c (dets.getD j [])) + if i = j then
        borderEnergy I c.nsites (2 * (c.nbh + c.nbv) * c.nblocs)
          (fun a r => Near (periPos (c.nbh * c.nblocs) (c.nbv * c.nblocs) a) (periPos (c.nbh * c.nblocs) (c.nbv * c.nblocs) (c.nsites + r)))
          (fun a r => Diagonal (periPos (c.nbh * c.nblocs) (c.nbv * c.nblocs) a) (periPos (c.nbh * c.nblocs) (c.nbv * c.nblocs) (c.nsites + r)))
          (occ c.nholes c.nbeta (dets.getD i [])) f
        else 0) * v.getD j 0 = rep.embedded
  top : ∃ idx, TopPositions v nbDet idx ∧ rep.dominant.map (·.1) = idx.map (fun i => (i, v.getD i 0))
  pictures : ∀ p ∈ rep.dominant, PictureOf (c.nbh * c.nblocs) (c.nbv * c.nblocs) c.nholes c.nbeta (dets.getD p.1.1 []) p.2

/-- The report never fails on the data of an embedded block. -/
theorem mainReport_ok (c : Config) (hc : RectConf c c.nbh c.nbv c.nblocs) (H : DataComputations ℝ) (x : ℝ) (xs : List ℝ) (v : List ℝ)
    (rest : List (List ℝ)) (he : H.eigenstates.eigvals = x :: xs) (hn : 1 ≤ H.determinants.length) (hv : v.length = H.determinants.length)
    (hr : H.eigenstates.eigvects = rowsOf H.determinants.length (v :: rest)) (hd : ∀ d ∈ H.determinants, ValidDet c.nsites d) (k : Nat) :
    ∃ rep, mainReport c H k = .ok rep ∧ rep.isolated = x ∧ rep.embedded = x ∧
      (∃ idx, TopPositions v k idx ∧ rep.dominant.map (·.1) = idx.map (fun i => (i, v.getD i 0))) ∧
      ∀ p ∈ rep.dominant, PictureOf (c.nbh * c.nblocs) (c.nbv * c.nblocs) c.nholes c.nbeta (H.determinants.getD p.1.1 []) p.2 := by
  obtain ⟨idx, i1, i2⟩ := C45_most_dominant H.determinants v hv k
  have hval : ∀ i ∈ idx, ValidDet c.nsites (H.determinants.getD i []) := by
    intro i hi
    have hlt : i < H.determinants.length := by rw [← hv]; exact i2.2.2.1 i hi
    rw [List.getD_eq_getElem _ _ hlt]
    exact hd _ (List.getElem_mem _)
  have htext : ∀ i, ∃ t, i ∈ idx → displayRectangular (.config c) (H.determinants.getD i []) = .ok t ∧
      PictureOf (c.nbh * c.nblocs) (c.nbv * c.nblocs) c.nholes c.nbeta (H.determinants.getD i []) t := by
    intro i
    by_cases hi : i ∈ idx
    · obtain ⟨t, lines, t1, t2, t3, t4⟩ := C47_rectangular_display c hc _ (hval i hi)
      exact ⟨t, fun _ => ⟨t1, lines, t2, t3, t4⟩⟩
    · exact ⟨[], fun h => absurd h hi⟩
  choose t ht using htext
  refine ⟨⟨x, x, idx.map (fun i => ((i, v.getD i 0), t i))⟩, ?_, rfl, rfl, ⟨idx, i2, by simp⟩, ?_⟩
  · unfold mainReport
    rw [he, hr, firstColumn_rowsOf hn v rest hv]
    show (mostDominant H.determinants v k >>= _) = _
    rw [i1]
    refine bind_eq_ok.2 ⟨_, rfl, bind_eq_ok.2 ⟨(idx.map (fun i => ((i, v.getD i 0), H.determinants.getD i []))).map (fun q => (q.1, t q.1.1)), ?_, ?_⟩⟩
    · refine mapM_ok fun q hq => ?_
      obtain ⟨i, hi, rfl⟩ := List.mem_map.1 hq
      exact bind_eq_ok.2 ⟨_, (ht i hi).1, rfl⟩
    · rw [List.map_map]; rfl
  · intro p hp
    obtain ⟨i, hi, rfl⟩ := List.mem_map.1 hp
    exact (ht i hi).2

theorem sum_forms {n d : Nat} (hd : d = n) (A : Matrix (Fin d) (Fin d) ℝ) (F : Nat → Nat → ℝ) (hF : ∀ i j : Fin d, A i j = F i j) (q : Fin d → ℝ) :
    (∑ i ∈ range n, (List.ofFn q).getD i 0 ^ 2 = q ⬝ᵥ q) ∧
    ∑ i ∈ range n, ∑ j ∈ range n, (List.ofFn q).getD i 0 * F i j * (List.ofFn q).getD j 0 = q ⬝ᵥ (A *ᵥ q) := by
  subst hd
  have hg : ∀ i : Fin d, (List.ofFn q).getD i 0 = q i := fun i => by
    rw [List.getD_eq_getElem _ _ (by simp)]; simp
  constructor
  · rw [← Fin.sum_univ_eq_sum_range (fun i => (List.ofFn q).getD i 0 ^ 2), dotProduct]
    exact sum_congr rfl fun i _ => by rw [hg]; ring
  · rw [← Fin.sum_univ_eq_sum_range (fun i => ∑ j ∈ range d, (List.ofFn q).getD i 0 * F i j * (List.ofFn q).getD j 0), dotProduct]
    refine sum_congr rfl fun i _ => ?_
    rw [← Fin.sum_univ_eq_sum_range (fun j => (List.ofFn q).getD i 0 * F i j * (List.ofFn q).getD j 0), mulVec, dotProduct, mul_sum]
    refine sum_congr rfl fun j _ => ?_
    rw [hg, hg, hF]
    ring

/-- C117, part. Once the results of the isolated block are saved with all switches on, the run of main.py ends without an exception, whatever the
lattice (at least two rows and columns), the filling, the couplings and the tolerances, for every library with exact QR decompositions, exact
eigenvectors and non-zero random vectors: it reports the energy of the last state in the field of its border and the largest coefficients with
faithful pictures, and leaves a file from which the same determinants, energies, state and Hamiltonian are loaded. What is missing is the energy
of the isolated block, see `C117_isolated_fails`. -/
theorem C117_run_partial (E : Env) (R : RunLib) (hsrt : RowSort R.srt) (fs : FileSys ℝ) (hroot : fs.root = true) (D : Data ℝ)
    (hc : RectConf D.config D.config.nbh D.config.nbv D.config.nblocs) (hf : D.config.Full) (hn : D.config.nholes + D.config.nbeta ≤ D.config.nsites)
    (hW : 2 ≤ D.config.nbh * D.config.nblocs) (hH : 2 ≤ D.config.nbv * D.config.nblocs)
    (hs : D.bools.bt ∧ D.bools.bij ∧ D.bools.bSD ∧ D.bools.btN ∧ D.bools.bV) (hguess : D.diag.guess = none) (hval : 1 ≤ D.diag.nbVal)
    (r : InitialResult) (h : performInitial E R.lin R.swap D = .ok r) (sqrt : ℝ → ℝ) (L : Nat → LinAlg ℝ) (hq : ∀ k, (L k).ExactQr)
    (hei : ∀ k, (L k).ExactEigh) (he0 : ∀ k n M i, ((L k).eigh n M).2 i ≠ 0) (hrand : ∀ k d m, ((L k).rand d m).length = m)
    (hr0 : ∀ k d, 1 ≤ d → ∀ v ∈ (L k).rand d 1, v ≠ 0) (nbVal : Nat) (hnb : nbVal ≤ r.determinants.length)
    (hmin : 1 < min nbVal (if D.diag.dimMax = 0 then r.determinants.length else D.diag.dimMax)) (fuel : Nat) (tol : ℝ) (maxIter : Nat) (hm : 1 ≤ maxIter)
    (nbDet : Nat) :
    ∃ fs' rep v, mainRun E sqrt (davidsonSolver L nbVal none D.diag.stp D.diag.tol D.diag.dimMax) (fuel + 1) (saveDataFs fs (r.toData R D)).1
        (saveName D.config.nsites D.config.nalpha D.config.nbeta D.bools) D tol maxIter nbDet = (fs', .ok rep) ∧
      GoodReport D.interactions D.bools D.config r.determinants nbDet rep v ∧
      (∃ P, fs'.load (savedPeripheralFile D.config.nsites D.config.nalpha D.config.nbeta D.bools) = .ok P ∧ P.determinants = r.determinants ∧
        P.eigenstates.eigvals.head? = some rep.embedded ∧ P.eigenstates.eigvects.map (·.head?) = v.map some ∧
        ∀ i j (hi : i < r.determinants.length) (hj : j < r.determinants.length), csrSum P.ham.data P.ham.indices P.ham.indptr i j =
          hamEl D.interactions (fun s => gridPos (D.config.nbh * D.config.nblocs) s) D.bools (conf D.config r.determinants[i]) (conf D.config r.determinants[j])) := by
  obtain ⟨hb, hham, ⟨guess, hdav, _⟩, _⟩ := performInitial_ok h
  have hnz : D.config.nsites ≠ 0 := by
    have := hc.spec.1
    have h4 : 1 ≤ (D.config.nbh * D.config.nblocs) * (D.config.nbv * D.config.nblocs) := Nat.mul_pos (by omega) (by omega)
    omega
  obtain ⟨hH', e1, e2, _, _⟩ := buildHamiltonian_spec D.interactions (hc.tj E) hf hn hb D.bools [] true
  obtain rfl := Except.ok.inj (hham.symm.trans e1)
  have hel := C31_matrix_elements E D.config _ _ _ hc hf hn D.interactions D.bools [] true r.determinants hb r.ham hham
  have hdim := C02_dimension D.config r.determinants hb
  obtain ⟨w1, ⟨Ld, l1, l2, _⟩, _⟩ := C90_chain_partial fs hroot (r.toData R D) R.times rfl hnz
    (show CsrShape D.config.nbConf _ _ _ by rw [← hdim, ← e2]; exact (toCsr_canonical hsrt r.ham (build_bounds hham)).shape) hs
  have hname : loadName D.config.nsites D.config.nalpha D.config.nbeta D.bools = saveName D.config.nsites D.config.nalpha D.config.nbeta D.bools :=
    (C56_names_agree_iff_partial _ _ _ _).2 hs
  set fs1 := (saveDataFs fs (r.toData R D)).1 with hfs1
  have hroot1 : fs1.root = true := by
    rw [hfs1]
    unfold saveDataFs writeJson
    dsimp only
    split_ifs
    · cases (saveData (r.toData R D)).map (·.2) <;> exact hroot
    · exact hroot
  have l1' : fs1.load (loadName D.config.nsites D.config.nalpha D.config.nbeta D.bools) = .ok Ld := l1
  have d1 : Ld.determinants = r.determinants := l2.determinants
  have d2 : Ld.ham = r.ham.toCsr R.srt := l2.ham
  have d3 : Ld.hamDim = r.determinants.length := l2.hamDim.trans hdim.symm
  have d4 : Ld.eigenstates.eigvals = r.eig.eigvals := by rw [l2.eigenstates]; rfl
  have d5 : Ld.eigenstates.eigvects = List.ofFn (fun i => r.eig.eigvects.map (fun v => v i)) := by rw [l2.eigenstates]; rfl
  -- the matrix
  have hpos : 1 ≤ r.determinants.length := by omega
  have hent : ∀ i < r.determinants.length, ∀ j, (Ld.ham.toCoo Ld.hamDim).entry i j = r.ham.entry i j := by
    intro i hi j
    rw [d3, toCoo_entry _ _ hi, d2, toCsr_entry hsrt _ (by omega)]
  have hdimM : (Ld.ham.toCoo Ld.hamDim).dim = r.determinants.length := d3
  have hin : ∀ t ∈ (Ld.ham.toCoo Ld.hamDim).coo, t.2.1 < (Ld.ham.toCoo Ld.hamDim).dim ∧ t.2.2 < (Ld.ham.toCoo Ld.hamDim).dim := by
    refine toCoo_bounds _ _ fun i hi p hp => ?_
    rw [d3] at hi ⊢
    rw [d2, toCsr_row R.srt r.ham (by omega)] at hp
    have := row_lt hsrt (build_bounds hham) hp
    omega
  set M := Ld.ham.toCoo Ld.hamDim with hM
  -- the first state of the isolated block
  have c50 := C50_converged R.lin r.ham.toMatrix D.diag.nbVal guess D.diag.stp D.diag.tol D.diag.dimMax r.eig hdav
  have hlen : 1 ≤ r.eig.eigvals.length := by
    rw [c50.1, e2]
    split_ifs at hmin ⊢ <;> omega
  have hstp : 1 ≤ D.diag.stp := by
    by_contra h0
    have h0 : D.diag.stp = 0 := by omega
    rw [h0] at hdav
    cases hdav
  obtain ⟨g0, grest, hg⟩ : ∃ g rest, r.eig.eigvects = g :: rest := by
    cases hge : r.eig.eigvects with
    | nil => rw [hge] at c50; simp at c50; omega
    | cons g rest => exact ⟨g, rest, rfl⟩
  obtain ⟨y0, yrest, hy⟩ : ∃ y rest, r.eig.eigvals = y :: rest := by
    cases hge : r.eig.eigvals with
    | nil => rw [hge] at hlen; simp at hlen
    | cons g rest => exact ⟨g, rest, rfl⟩
  have hfirst : firstColumn Ld.eigenstates.eigvects = .ok (List.ofFn g0) := by
    rw [d5, hg]
    exact firstColumn_ofFn (by omega) g0 grest
  -- the embedding
  obtain ⟨res, hres⟩ := C92_neel_returns E sqrt L hq he0 hrand hr0 fuel D.interactions D.config hc hW hH r.determinants hb hn M hdimM hin
    (List.ofFn g0) (by simp [e2]) [] nbVal D.diag.stp D.diag.dimMax (by omega) hnb hstp D.diag.tol tol maxIter hm
  have good := C92_nonzero_vectors L hq he0 nbVal none D.diag.stp D.diag.tol D.diag.dimMax r.determinants.length (fun h => by omega)
  obtain ⟨_, k, x, x1, x2⟩ := C79_neel_isolated E sqrt _ _ _ _ _ _ _ _ _ _ hres
  obtain ⟨f, f1, f2, f3⟩ := C73_neel_dressing E sqrt _ _ D.interactions D.config hc hW hH r.determinants good hb hn M hdimM hin _ tol maxIter res hres x
    (List.mem_of_getLast? x1)
  obtain ⟨q, q1, q2⟩ := bind_eq_ok.1 x2
  obtain ⟨q3, q4⟩ := Prod.mk.inj (Except.ok.inj q2)
  have hxd : x.ham.dim = r.determinants.length := f2.trans hdimM
  -- entries of the dressed matrix
  set F : Nat → Nat → ℝ := fun i j =>
      hamEl D.interactions (fun s => gridPos (D.config.nbh * D.config.nblocs) s) D.bools (conf D.config (r.determinants.getD i [])) (conf D.config (r.determinants.getD j [])) +
        if i = j then
        borderEnergy D.interactions D.config.nsites (2 * (D.config.nbh + D.config.nbv) * D.config.nblocs)
          (fun a r => Near (periPos (D.config.nbh * D.config.nblocs) (D.config.nbv * D.config.nblocs) a) (periPos (D.config.nbh * D.config.nblocs) (D.config.nbv * D.config.nblocs) (D.config.nsites + r)))
          (fun a r => Diagonal (periPos (D.config.nbh * D.config.nblocs) (D.config.nbv * D.config.nblocs) a) (periPos (D.config.nbh * D.config.nblocs) (D.config.nbv * D.config.nblocs) (D.config.nsites + r)))
          (occ D.config.nholes D.config.nbeta (r.determinants.getD i [])) f
        else 0 with hF
  have hFx : ∀ i j : Fin x.ham.dim, x.ham.toMatrix i j = F i j := by
    intro i j
    have hi : (i : Nat) < r.determinants.length := lt_of_lt_of_eq i.2 hxd
    have hj : (j : Nat) < r.determinants.length := lt_of_lt_of_eq j.2 hxd
    show x.ham.entry i j = _
    rw [f3 i j hi, hent i hi, hel i j hi hj, hF]
    simp only [List.getD_eq_getElem _ _ hi, List.getD_eq_getElem _ _ hj]
  have hsymM := C32_symmetric E D.config _ _ _ hc hf hn D.interactions D.bools [] true r.determinants hb r.ham hham
  have hsym : x.ham.toMatrix.IsSymm := by
    ext i j
    have hi : (i : Nat) < r.determinants.length := lt_of_lt_of_eq i.2 hxd
    have hj : (j : Nat) < r.determinants.length := lt_of_lt_of_eq j.2 hxd
    show x.ham.entry j i = x.ham.entry i j
    rw [f3 i j hi, f3 j i hj, hent i hi, hent j hj, hsymM]
    by_cases hij : (i : Nat) = j
    · rw [if_pos hij, if_pos hij.symm]
      simp only [hij]
    · rw [if_neg hij, if_neg (Ne.symm hij)]
  obtain ⟨o1, o2, o3, _⟩ := C51_ritz_bounds (L k) (hei k) (hq k) x.ham.toMatrix hsym nbVal _ D.diag.stp D.diag.tol D.diag.dimMax q q1
    (Or.inl (by rw [hxd]; exact hmin))
  have c50' := C50_converged (L k) x.ham.toMatrix nbVal _ D.diag.stp D.diag.tol D.diag.dimMax q q1
  have hql : 1 ≤ q.eigvals.length := by rw [c50'.1, hxd]; omega
  obtain ⟨v0, vrest, hv0⟩ : ∃ g rest, q.eigvects = g :: rest := by
    cases hge : q.eigvects with
    | nil => have := c50'.2.1; rw [hge] at this; simp at this; rw [← this] at hql; simp at hql
    | cons g rest => exact ⟨g, rest, rfl⟩
  obtain ⟨z0, zrest, hz⟩ : ∃ y rest, q.eigvals = y :: rest := by
    cases hge : q.eigvals with
    | nil => rw [hge] at hql; simp at hql
    | cons g rest => exact ⟨g, rest, rfl⟩
  have hforms := sum_forms hxd x.ham.toMatrix F hFx v0
  have hunit : v0 ⬝ᵥ v0 = 1 := ((ortho_iff _).1 o1).1 _ (by rw [hv0]; simp)
  have hquot : v0 ⬝ᵥ (x.ham.toMatrix *ᵥ v0) = z0 := by
    have := o3 0 (by omega) (by rw [hv0]; simp)
    simpa [hv0, hz] using this
  have r1 : res.eigvals = z0 :: zrest := by rw [← q3, hz]
  have r2 : res.eigvects = List.ofFn v0 :: vrest.map List.ofFn := by rw [← q4, hv0, List.map_cons]
  have hvl : (List.ofFn v0).length = r.determinants.length := by simp [hxd]
  -- the report
  set H := neelData D Ld res with hHdef
  have hHe : H.eigenstates.eigvects = rowsOf H.determinants.length (List.ofFn v0 :: vrest.map List.ofFn) := by
    show rowsOf Ld.hamDim res.eigvects = rowsOf Ld.determinants.length _
    rw [r2, d1, d3]
  obtain ⟨rep, p1, p2, p3, p4, p5⟩ := mainReport_ok D.config hc H z0 zrest (List.ofFn v0) _ (by show res.eigvals = _; exact r1)
    (by show 1 ≤ Ld.determinants.length; rw [d1]; exact hpos) (by show _ = Ld.determinants.length; rw [d1]; exact hvl) hHe
    (by
      intro d hd
      have hd : d ∈ r.determinants := by rw [← d1]; exact hd
      obtain ⟨i, hi, rfl⟩ := List.getElem_of_mem hd
      exact valid_getElem hb (List.getElem?_eq_getElem hi)) nbDet
  obtain ⟨s1, ⟨P, s2, s3, _⟩, _⟩ := C89_peripheral_partial fs1 hroot1 H hnz hguess
    (show CsrShape D.config.nbConf Ld.ham.data Ld.ham.indices Ld.ham.indptr by rw [← hdim, ← d3]; exact load_shape l1')
  refine ⟨(savePeripheral fs1 H).1, rep, List.ofFn v0, ?_, ⟨hvl, ?_, ⟨x.prob, f, f1, ?_⟩, p4, ?_⟩, P, s2, ?_, ?_, ?_, ?_⟩
  · unfold mainRun
    rw [← hname, l1']
    dsimp only
    have hdisk : neelOnDisk E sqrt (davidsonSolver L nbVal none D.diag.stp D.diag.tol D.diag.dimMax) (fuel + 1) fs1 D tol maxIter =
        ((savePeripheral fs1 H).1, .ok H) := by
      unfold neelOnDisk
      rw [l1']
      dsimp only
      have hrun : (do
          let gs ← firstColumn Ld.eigenstates.eigvects
          let r ← embeddingNeel E sqrt (davidsonSolver L nbVal none D.diag.stp D.diag.tol D.diag.dimMax) (fuel + 1) D.interactions D.config Ld.determinants
            (Ld.ham.toCoo Ld.hamDim) [gs] tol maxIter
          let _ ← pyGet Ld.eigenstates.eigvals 0
          let _ ← pyGet r.eigvals 0
          return r : Py (NeelResult ℝ)) = .ok res := by
        refine bind_eq_ok.2 ⟨_, hfirst, bind_eq_ok.2 ⟨res, ?_, ?_⟩⟩
        · rw [d1]; exact hres
        · rw [d4, hy, r1]; rfl
      rw [hrun]
      dsimp only
      rw [← hHdef]
      have hpair : savePeripheral fs1 H = ((savePeripheral fs1 H).1, .ok ()) := Prod.ext rfl s1
      rw [hpair]
    rw [hdisk]
    dsimp only
    rw [p1]
  · rw [hforms.1, hunit]
  · rw [p3, ← hquot, ← hforms.2]
  · intro p hp
    have := p5 p hp
    have e : H.determinants = r.determinants := d1
    rwa [e] at this
  · rw [s3.determinants]; exact d1
  · rw [s3.eigenstates, p3]
    show res.eigvals.head? = _
    rw [r1]; rfl
  · rw [s3.eigenstates, hHe]
    have e : H.determinants.length = r.determinants.length := congrArg List.length d1
    rw [e]
    unfold rowsOf
    rw [List.map_map]
    refine List.ext_getElem (by simp [hxd]) fun i h1 h2 => ?_
    have hi : i < (List.ofFn v0).length := by simpa using h2
    rw [List.getElem_map, List.getElem_map, List.getElem_range]
    show some ((List.ofFn v0).getD i 0) = _
    rw [List.getD_eq_getElem _ _ hi]
  · intro i j hi hj
    rw [s3.ham]
    show csrSum Ld.ham.data Ld.ham.indices Ld.ham.indptr i j = _
    rw [d2, toCsr_csrSum hsrt r.ham (build_bounds hham) (by omega)]
    exact hel i j hi hj

/-- C117 fails: what main.py prints as the energy of the isolated block is always the embedded energy. -/
theorem C117_isolated_fails {K : Type} [Field K] [LinearOrder K] (E : Env) (sqrt : K → K) (solve : Solver K) (fuel : Nat) (fs fs' : FileSys K) (name : List Char)
    (D : Data K) (tol : K) (maxIter nbDet : Nat) (rep : MainReport K)
    (h : mainRun E sqrt solve fuel fs name D tol maxIter nbDet = (fs', .ok rep)) : rep.isolated = rep.embedded := by
  unfold mainRun at h
  split at h
  · cases h
  · split at h
    · cases h
    · rename_i H _
      split at h
      · cases h
      · rename_i rep' hr
        obtain rfl := Except.ok.inj (Prod.mk.inj h).2
        unfold mainReport at hr
        obtain ⟨a, a1, hr⟩ := bind_eq_ok.1 hr
        obtain ⟨b, b1, hr⟩ := bind_eq_ok.1 hr
        obtain ⟨_, _, hr⟩ := bind_eq_ok.1 hr
        obtain ⟨_, _, hr⟩ := bind_eq_ok.1 hr
        obtain ⟨_, _, hr⟩ := bind_eq_ok.1 hr
        obtain rfl := Except.ok.inj hr
        exact Except.ok.inj (a1.symm.trans b1)

/-- The saved results of the isolated block: four up spins on a 2×2 block, whose energy is 0. -/
def exIsolated : DataComputations ℚ :=
  ⟨rectConf 1 1 2 0 0, exI, ⟨1, 10, 1 / 10, 0, none⟩, ⟨true, true, true, true, true, true⟩, false, [[0, 1, 2, 3]], ⟨[], [], [0, 0]⟩, ⟨[0], [], [[1]]⟩, some ⟨1, 2, 3⟩⟩

/-- C117 fails, concretely: the file contains the energy 0, main.py prints -4 for the isolated and for the embedded block. -/
theorem C117_isolated_witness : exIsolated.eigenstates.eigvals = [0] ∧
    (mainRun exEnv sqrtUpTo4 oneSolver 1 (saveDataFs exFs exIsolated).1 "tJHam-440Full.json".toList
      ⟨exIsolated.config, exIsolated.interactions, exIsolated.diag, exIsolated.bools, false⟩ 1 5 50).2.toOption.map (fun r => (r.isolated, r.embedded, r.dominant.length)) =
      some (-4, -4, 1) := by
  refine ⟨rfl, ?_⟩
  decide +kernel

/-- The name in main.py is the one under which the results for 18 sites, two holes and eight down spins are saved if all switches are on. -/
theorem C117_file_name : saveName 18 8 8 ⟨true, true, true, true, true, true⟩ = "tJHam-1888Full.json".toList := by decide +kernel

/-! ### C118 -/

theorem setEntry_ok {K : Type} {a : List (List K)} {i j n w : Nat} (hl : a.length = n) (hr : ∀ r ∈ a, r.length = w) (hi : i < n) (hj : j < w) (x : K) [Zero K] :
    ∃ b, setEntry a i j x = .ok b ∧ b.length = n ∧ (∀ r ∈ b, r.length = w) ∧
      ∀ p q, p < n → q < w → (b.getD p []).getD q 0 = if p = i ∧ q = j then x else (a.getD p []).getD q 0 := by
  have hi' : i < a.length := by omega
  have hj' : j < (a[i]).length := by rw [hr _ (List.getElem_mem _)]; exact hj
  refine ⟨a.set i ((a[i]).set j x), ?_, by simp [hl], ?_, ?_⟩
  · unfold setEntry
    rw [List.getElem?_eq_getElem hi']
    simp only [hj', if_true]
  · intro r h
    rcases List.mem_or_eq_of_mem_set h with h | h
    · exact hr r h
    · rw [h, List.length_set]; exact hr _ (List.getElem_mem _)
  · intro p q hp hq
    have hp' : p < a.length := by omega
    have hq' : q < (a[p]).length := by rw [hr _ (List.getElem_mem _)]; exact hq
    have hget : (a.set i ((a[i]).set j x)).getD p [] = (a.set i ((a[i]).set j x))[p]'(by simpa using hp') := List.getD_eq_getElem _ _ _
    have hget' : a.getD p [] = a[p] := List.getD_eq_getElem _ _ _
    rw [hget, List.getElem_set, hget']
    by_cases hpi : i = p
    · subst hpi
      rw [if_pos rfl, List.getD_eq_getElem _ _ (by simpa using hq'), List.getElem_set, List.getD_eq_getElem _ _ hq']
      simp only [true_and, eq_comm]
    · rw [if_neg hpi, if_neg (by rintro ⟨h, _⟩; exact hpi h.symm)]

/-- C118. The guess made of determinants of the basis: the column of a determinant has a one in its row and zeros elsewhere. -/
theorem C118_guess {K : Type} [Zero K] [One K] (c : Config) (basis : List (List Nat)) (hb : constructBasis c = .ok basis) (width : Nat)
    (guesses : List (List Nat)) (hg : ∀ d ∈ guesses, d ∈ basis) (hw : guesses.length ≤ width) :
    ∃ a : List (List K), guessMatrix c width guesses = .ok a ∧ a.length = basis.length ∧ (∀ r ∈ a, r.length = width) ∧
      ∀ i (hi : i < basis.length), ∀ k < width, (a.getD i []).getD k 0 = if guesses[k]? = some basis[i] then 1 else 0 := by
  have hlen := C02_dimension c basis hb
  have hnd : basis.Nodup := by
    obtain ⟨l, h1, h2, _⟩ := C01_basis_enumerates c
    obtain rfl := Except.ok.inj (hb.symm.trans h1)
    exact h2
  have hpos : ∀ d ∈ basis, ∃ h : computeHashTable c d < basis.length, basis[computeHashTable c d] = d := by
    rw [constructBasis_eq] at hb
    obtain rfl := Except.ok.inj hb
    intro d hd
    have := getElem?_hash hd
    exact List.getElem?_eq_some_iff.1 this
  have key : ∀ (l : List (List Nat)) (s : Nat) (a : List (List K)), (∀ d ∈ l, d ∈ basis) → s + l.length ≤ width → a.length = basis.length →
      (∀ r ∈ a, r.length = width) →
      ∃ b : List (List K), (l.zipIdx s).foldlM (fun a p => setEntry a (computeHashTable c p.1) p.2 1) a = .ok b ∧ b.length = basis.length ∧
        (∀ r ∈ b, r.length = width) ∧ ∀ i (hi : i < basis.length), ∀ k < width,
          (b.getD i []).getD k 0 = if s ≤ k ∧ l[k - s]? = some basis[i] then 1 else (a.getD i []).getD k 0 := by
    intro l
    induction l with
    | nil =>
      intro s a _ _ h1 h2
      exact ⟨a, rfl, h1, h2, fun i hi k hk => by simp⟩
    | cons d l ih =>
      intro s a hm hs h1 h2
      obtain ⟨hd1, hd2⟩ := hpos d (hm d (by simp))
      simp only [List.length_cons] at hs
      obtain ⟨b, b1, b2, b3, b4⟩ := setEntry_ok (x := (1 : K)) (j := s) h1 h2 hd1 (by omega)
      obtain ⟨e, e1, e2, e3, e4⟩ := ih (s + 1) b (fun d hd => hm d (List.mem_cons_of_mem _ hd)) (by omega) b2 b3
      refine ⟨e, ?_, e2, e3, fun i hi k hk => ?_⟩
      · rw [List.zipIdx_cons, List.foldlM_cons]
        exact bind_eq_ok.2 ⟨b, b1, e1⟩
      · rw [e4 i hi k hk, b4 i k hi hk]
        by_cases hks : k = s
        · subst hks
          have hiff : i = computeHashTable c d ↔ d = basis[i] := by
            constructor
            · intro h; subst h; exact hd2.symm
            · intro h
              exact (hnd.getElem_inj_iff).1 (h.symm.trans hd2.symm)
          simp only [Nat.sub_self, List.getElem?_cons_zero, Option.some.injEq, le_refl, true_and, and_true, hiff]
          rw [if_neg (by omega)]
        · by_cases hlt : k < s
          · rw [if_neg (by omega), if_neg (by rintro ⟨_, h⟩; exact hks h), if_neg (by omega)]
          · have : k - s = (k - (s + 1)) + 1 := by omega
            rw [this, List.getElem?_cons_succ, if_neg (show ¬ (i = computeHashTable c d ∧ k = s) from fun h => hks h.2)]
            have h1 : s + 1 ≤ k := by omega
            have h2 : s ≤ k := by omega
            simp only [h1, h2, true_and]
  obtain ⟨a, a1, a2, a3, a4⟩ := key guesses 0 (List.replicate c.nbConf (List.replicate width 0)) hg (by omega) (by simp [hlen])
    (fun r hr => by rw [(List.mem_replicate.1 hr).2]; simp)
  refine ⟨a, a1, a2, a3, fun i hi k hk => ?_⟩
  rw [a4 i hi k hk]
  simp only [Nat.zero_le, true_and, Nat.sub_zero]
  have : ((List.replicate c.nbConf (List.replicate width (0 : K))).getD i []).getD k 0 = 0 := by
    have hget : (List.replicate c.nbConf (List.replicate width (0 : K))).getD i [] = (List.replicate c.nbConf (List.replicate width (0 : K)))[i]'(by simp; omega) :=
      List.getD_eq_getElem _ _ _
    rw [hget, List.getElem_replicate, List.getD_eq_getElem _ _ (by simpa using hk), List.getElem_replicate]
  rw [this]

/-- C118. Different determinants of the basis give orthonormal columns: such a guess meets the hypotheses on the initial guess of the theorems about the
diagonalisation. -/
theorem C118_orthonormal {K : Type} [Field K] (c : Config) (basis : List (List Nat)) (hb : constructBasis c = .ok basis) (hpos : 1 ≤ basis.length)
    (guesses : List (List Nat)) (hg : ∀ d ∈ guesses, d ∈ basis) (hd : guesses.Nodup) :
    ∃ a, guessMatrix c guesses.length guesses = .ok a ∧ ∃ V : List (Fin basis.length → K), guessColumns basis.length a = .ok V ∧ V.length = guesses.length ∧ Ortho V := by
  obtain ⟨a, a1, a2, a3, a4⟩ := C118_guess (K := K) c basis hb guesses.length guesses hg le_rfl
  have hhead : (a.headD []).length = guesses.length := by
    cases a with
    | nil => simp at a2; omega
    | cons r _ => exact a3 r (by simp)
  refine ⟨a, a1, _, by unfold guessColumns; rw [if_pos a2], by rw [List.length_map, List.length_range, hhead], ?_⟩
  intro i j
  have hi : (i : Nat) < guesses.length := lt_of_lt_of_eq i.2 (by rw [List.length_map, List.length_range, hhead])
  have hj : (j : Nat) < guesses.length := lt_of_lt_of_eq j.2 (by rw [List.length_map, List.length_range, hhead])
  simp only [List.get_eq_getElem, List.getElem_map, List.getElem_range, dotProduct]
  have hcol : ∀ (k : Nat) (hk : k < guesses.length) (x : Fin basis.length), (a.getD x []).getD k 0 = if guesses[k] = basis[x] then (1 : K) else 0 := by
    intro k hk x
    rw [a4 x x.2 k hk, List.getElem?_eq_getElem hk]
    simp only [Option.some.injEq, Fin.getElem_fin]
  obtain ⟨p, hp, hpe⟩ := List.getElem_of_mem (hg _ (List.getElem_mem hi))
  have hnd : basis.Nodup := by
    obtain ⟨l, h1, h2, _⟩ := C01_basis_enumerates c
    obtain rfl := Except.ok.inj (hb.symm.trans h1)
    exact h2
  rw [Finset.sum_eq_single (⟨p, hp⟩ : Fin basis.length)]
  · rw [hcol _ hi, hcol _ hj, if_pos (by simp [hpe]), one_mul]
    have : (guesses[(j : Nat)] = basis[(⟨p, hp⟩ : Fin basis.length)]) ↔ i = j := by
      rw [Fin.getElem_fin, hpe, hd.getElem_inj_iff, Fin.ext_iff, eq_comm]
    simp only [this]
  · intro x _ hx
    rw [hcol _ hi, if_neg, zero_mul]
    intro h
    apply hx
    apply Fin.ext
    rw [Fin.getElem_fin, ← hpe] at h
    exact ((hnd.getElem_inj_iff).1 h).symm
  · intro h; exact absurd (Finset.mem_univ _) h

theorem guess_in_basis (c : Config) (hn : c.nholes + c.nbeta ≤ c.nsites) (basis : List (List Nat)) (hb : constructBasis c = .ok basis) (l : List (List Nat))
    (h : ∀ d ∈ l, ValidDet c.nsites d ∧ reorder c d = d) : ∀ d ∈ l, d ∈ basis := by
  intro d hd
  have := (C08_reorder c hn basis hb d (h d hd).1).2.2.1
  rwa [(h d hd).2] at this

/-- C118. The two guesses of main.py consist of different determinants of the basis: both would be orthonormal. -/
theorem C118_main {K : Type} [Field K] :
    (∃ a, guessMatrix (rectConf 2 2 2 4 6) 6 guesses16 = .ok a ∧ ∃ d, ∃ V : List (Fin d → K), guessColumns d a = .ok V ∧ V.length = 6 ∧ Ortho V) ∧
    (∃ a, guessMatrix (rectConf 2 1 3 2 8) 6 guesses18 = .ok a ∧ ∃ d, ∃ V : List (Fin d → K), guessColumns d a = .ok V ∧ V.length = 6 ∧ Ortho V) := by
  have main : ∀ (c : Config) (l : List (List Nat)), c.nholes + c.nbeta ≤ c.nsites → l.Nodup → l ≠ [] → (∀ d ∈ l, ValidDet c.nsites d ∧ reorder c d = d) →
      ∃ a, guessMatrix c l.length l = .ok a ∧ ∃ d, ∃ V : List (Fin d → K), guessColumns d a = .ok V ∧ V.length = l.length ∧ Ortho V := by
    intro c l hn hl h0 h
    have hm := guess_in_basis c hn _ (constructBasis_eq c) l h
    obtain ⟨d, t, rfl⟩ := List.exists_cons_of_ne_nil h0
    obtain ⟨a, a1, V, v⟩ := C118_orthonormal (K := K) c _ (constructBasis_eq c) (List.length_pos_of_mem (hm d (by simp))) _ hm hl
    exact ⟨a, a1, _, V, v⟩
  exact ⟨main (rectConf 2 2 2 4 6) guesses16 (by decide +kernel) (by decide +kernel) (by decide) (by decide +kernel),
    main (rectConf 2 1 3 2 8) guesses18 (by decide +kernel) (by decide +kernel) (by decide) (by decide +kernel)⟩

/-- Sites in another order do not give the position in the basis: the index is outside of the array. -/
example : guessMatrix (K := ℚ) (rectConf 3 3 1 2 1) 1 [[8, 1, 2, 0, 3, 4, 5, 6, 7]] = .error .indexError := by decide +kernel

example : guessMatrix (K := ℚ) (rectConf 2 1 1 1 0) 2 [[1, 0], [0, 1]] = .ok [[0, 1], [1, 0]] := by decide +kernel

/-! ### A case that meets the hypotheses of C117 -/

/-- One hole and three up spins on 2 x 2 sites, all switches on. -/
noncomputable def mainCase : Data ℝ :=
  ⟨rectConf 2 2 1 1 0, ⟨-1, 2, 3, 4, 5, 6, 7, 8, 9, 10⟩, ⟨1, 1000, 1 / 1000, 0, none⟩, ⟨true, true, true, true, true, true⟩, false⟩

example : ∃ fs' rep v, ∃ r : InitialResult, mainRun exEnv Real.sqrt (davidsonSolver (fun _ => realLib) 2 none 1000 (1 / 1000) 0) 1
      (saveDataFs emptyDir (r.toData (exactRuns 3) mainCase)).1 (saveName 4 3 0 mainCase.bools) mainCase (1 / 1000) 20 50 = (fs', .ok rep) ∧
    v.length = 4 ∧ rep.dominant.length = 4 ∧ GoodReport mainCase.interactions mainCase.bools mainCase.config r.determinants 50 rep v := by
  have hb : constructBasis mainCase.config = .ok [[0, 1, 2, 3], [1, 0, 2, 3], [2, 0, 1, 3], [3, 0, 1, 2]] := by decide +kernel
  have hf : mainCase.config.Full := by unfold Config.Full; decide +kernel
  have hc : RectConf mainCase.config 2 2 1 := rectConf_ok 2 2 1 1 0 (by omega) (by omega) (by omega)
  have hn : mainCase.config.nholes + mainCase.config.nbeta ≤ mainCase.config.nsites := by decide +kernel
  obtain ⟨r, h1, h2, _⟩ := C80_no_failure_count exEnv realLib realLib_qr realLib_rand (fun _ => false) mainCase 2 2 1 hc hf hn (by intro h; cases h) _ hb
    (by decide +kernel) (by decide +kernel) (by intro rows h; cases h)
  obtain ⟨fs', rep, v, m1, m2, _⟩ := C117_run_partial exEnv (exactRuns 3) insertionRows_sort emptyDir rfl mainCase hc hf hn (by decide +kernel) (by decide +kernel)
    (by decide +kernel) rfl (by decide +kernel) r h1 Real.sqrt (fun _ => realLib) (fun _ => realLib_qr) (fun _ => realLib_eigh) (fun _ => realLib_ne_zero)
    (fun _ => realLib_rand) (fun _ => realLib_rand_ne_zero) 2 (by rw [h2]; decide) (by rw [h2]; decide +kernel) 0 (1 / 1000) 20 (by omega) 50
  have hv : v.length = 4 := by rw [m2.len, h2]; rfl
  refine ⟨fs', rep, v, r, m1, hv, ?_, m2⟩
  obtain ⟨idx, i1, i2⟩ := m2.top
  have := congrArg List.length i2
  rw [List.length_map, List.length_map, i1.2.1, hv] at this
  simpa using this

end TJ
