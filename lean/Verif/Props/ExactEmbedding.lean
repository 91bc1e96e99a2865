/-
Exact conditions for claims of the embeddings that the code meets in part: C63 (results returned), C79 (stored Hamiltonian), C129 (bars of one
determinant at one place), C132 (total spin after the phase diagram).
-/
import Verif.Props.EmbeddingPictures
import Verif.Props.Embedding4
import Verif.Props.StaleSpin

open Finset

namespace TJ

section
variable {K : Type} [Field K] [LinearOrder K] [IsStrictOrderedRing K]

/-- C63. Exactly when a run of `embedding_blocks` that ends gives its last results to the caller: if one of the changes of the ground state was small. The run has
one change for each iteration. -/
theorem C63_returned_iff (E : Env) (sqrt : K → K) (solve : Solver K) (fuel : Nat) (I : Interactions K) (c : Config) (o : BlockOptions K)
    (dets : List (List Nat)) (ham : SpMat K) (eigvals : List K) (eigvects : List (List K)) (gs0 : List K) (h0 : eigvects[0]? = some gs0)
    (tol : K) (maxIter : Nat) (r : BlockResult K ⊕ List (BlockStep K))
    (h : embeddingBlocks E sqrt solve fuel I c o dets ham eigvals eigvects tol maxIter = .ok r) :
    (∃ q, r = .inl q) ↔ ∃ a b, Consec (gs0 :: (r.elim (·.trace) id).map (·.gs)) a b ∧ SmallChange sqrt tol b a := by
  obtain ⟨h1, h2⟩ := C63_converged_partial E sqrt solve fuel I c o dets ham eigvals eigvects gs0 h0 tol maxIter r h
  constructor
  · rintro ⟨q, rfl⟩
    obtain ⟨_, _, _, p, old, new, e, _, _, hs, _⟩ := h1 q rfl
    exact ⟨old, new, ⟨p, [], e⟩, hs⟩
  · rintro ⟨a, b, hab, hs⟩
    cases r with
    | inl q => exact ⟨q, rfl⟩
    | inr t => exact absurd hs ((h2 t rfl).2 a b hab)

/-- C79. Exactly when the Hamiltonian that `embedding_neel` returns has one of the states of the last diagonalised matrix as eigenvector with the same
energy: if no determinant of this state has an interaction with the border. -/
theorem C79_neel_iff (E : Env) (sqrt : K → K) (solve : Solver K) (fuel : Nat) (I : Interactions K) (c : Config)
    (hc : RectConf c c.nbh c.nbv c.nblocs) (hW : 2 ≤ c.nbh * c.nblocs) (hH : 2 ≤ c.nbv * c.nblocs) (dets : List (List Nat))
    (hsol : solve.Good dets.length) (hb : constructBasis c = .ok dets) (hn : c.nholes + c.nbeta ≤ c.nsites) (ham : SpMat K) (hd : ham.dim = dets.length)
    (hin : ∀ t ∈ ham.coo, t.2.1 < ham.dim ∧ t.2.2 < ham.dim) (eigvects : List (List K)) (tol : K) (maxIter : Nat)
    (r : NeelResult K) (h : embeddingNeel E sqrt solve fuel I c dets ham eigvects tol maxIter = .ok r) :
    ∃ x f k, r.trace.getLast? = some x ∧ solve k x.ham = .ok (r.eigvals, r.eigvects) ∧ IsLaw x.prob (2 * (c.nbh + c.nbv) * c.nblocs) f ∧
      ∀ (v : List K) (e : K), v.length = dets.length → matVec x.ham v = v.map (e * ·) →
        (matVec r.ham v = v.map (e * ·) ↔ ∀ i (hi : i < dets.length), v.getD i 0 ≠ 0 →
          borderEnergy I c.nsites (2 * (c.nbh + c.nbv) * c.nblocs)
            (fun a r => Near (periPos (c.nbh * c.nblocs) (c.nbv * c.nblocs) a) (periPos (c.nbh * c.nblocs) (c.nbv * c.nblocs) (c.nsites + r)))
            (fun a r => Diagonal (periPos (c.nbh * c.nblocs) (c.nbv * c.nblocs) a) (periPos (c.nbh * c.nblocs) (c.nbv * c.nblocs) (c.nsites + r)))
            (occ c.nholes c.nbeta dets[i]) f = 0) := by
  obtain ⟨h1, k, x, h2, h3⟩ := C79_neel_isolated E sqrt solve fuel I c dets ham eigvects tol maxIter r h
  obtain ⟨f, f1, f2, f3⟩ := C73_neel_dressing E sqrt solve fuel I c hc hW hH dets hsol hb hn ham hd hin eigvects tol maxIter r h x
    (List.mem_of_getLast? h2)
  refine ⟨x, f, k, h2, h3, f1, fun v e hv he => ?_⟩
  rw [h1]
  have hentry : ∀ (M : SpMat K), M.dim = dets.length → (matVec M v = v.map (e * ·) ↔ ∀ i < dets.length,
      ∑ j ∈ range dets.length, M.entry i j * v.getD j 0 = e * v.getD i 0) := by
    intro M hM
    constructor
    · intro q i hi
      rw [← hM, ← getD_matVec (by omega), q]
      simp [List.getD_eq_getElem?_getD, hv, hi]
    · intro q
      apply List.ext_getElem
      · simp [matVec, hM, hv]
      · intro i q1 q2
        have hi : i < dets.length := by simpa [hv] using q2
        have := q i hi
        rw [← hM] at this
        simp only [matVec, List.getElem_map, List.getElem_range]
        rw [this]
        simp [List.getD_eq_getElem?_getD, hv, hi]
  rw [hentry x.ham (f2.trans hd)] at he
  rw [hentry ham hd]
  refine forall_congr' fun i => ?_
  constructor
  · intro q hi hv0
    have e1 := he i hi
    simp only [f3 i _ hi, add_mul, sum_add_distrib, ite_mul, zero_mul, sum_ite_eq, mem_range, hi, if_true] at e1
    rw [q hi, add_eq_left] at e1
    exact (mul_eq_zero.1 e1).resolve_right hv0
  · intro q hi
    have e1 := he i hi
    simp only [f3 i _ hi, add_mul, sum_add_distrib, ite_mul, zero_mul, sum_ite_eq, mem_range, hi, if_true] at e1
    by_cases hv0 : v.getD i 0 = 0
    · rw [← e1, hv0, mul_zero, add_zero]
    · rw [← e1, q hi hv0, zero_mul, add_zero]

/-- The bars at each place belong to one determinant: some order of the determinants gives both rows of bars. -/
def OneDeterminant (v w : List K) (n : Nat) (hs hs' : List K) : Prop :=
  ∃ order : List Nat, order.Nodup ∧ order.length = n ∧ (∀ i ∈ order, i < v.length) ∧ hs = order.map (fun i => |v.getD i 0| ^ 2) ∧
    hs' = order.map (fun i => |w.getD i 0| ^ 2)

theorem sq_abs_getD (v : List K) {i : Nat} (hi : i < v.length) : |(v.map (fun x => |x| ^ 2)).getD i 0| = |v.getD i 0| ^ 2 := by
  have : (v.map (fun x => |x| ^ 2)).getD i 0 = |v.getD i 0| ^ 2 := by simp [List.getD_eq_getElem?_getD, List.getElem?_eq_getElem hi]
  rw [this]
  exact abs_of_nonneg (by positivity)

/-- Decreasing orders of all determinants give the bars. -/
theorem heights_of_order {v : List K} {order : List Nat} (h1 : order.Nodup) (h2 : order.length = v.length) (h3 : ∀ i ∈ order, i < v.length)
    (h4 : order.Pairwise (fun i j => |v.getD j 0| ≤ |v.getD i 0|)) : Heights v v.length (order.map (fun i => |v.getD i 0| ^ 2)) := by
  have hall : ∀ j < v.length, j ∈ order := by
    intro j hj
    have hsub : order.toFinset = Finset.range v.length := Finset.eq_of_subset_of_card_le
      (fun i hi => mem_range.2 (h3 i (List.mem_toFinset.1 hi))) (by rw [card_range, List.toFinset_card_of_nodup h1, h2])
    exact List.mem_toFinset.1 (hsub ▸ mem_range.2 hj)
  refine ⟨order, ⟨h1, by simp [h2], by simpa using h3, ?_, ?_⟩, rfl⟩
  · refine h4.imp_of_mem fun {i j} hi hj hij => ?_
    rw [sq_abs_getD v (h3 i hi), sq_abs_getD v (h3 j hj)]
    exact pow_le_pow_left₀ (abs_nonneg _) hij 2
  · intro j hj hjo
    exact absurd (hall j (by simpa using hj)) hjo

/-- Exactly when the two sorted rows of bars belong to common determinants. -/
theorem oneDeterminant_iff {v w : List K} (hl : w.length = v.length) {hs hs' : List K} (h : Heights v v.length hs) (h' : Heights w v.length hs') :
    OneDeterminant v w v.length hs hs' ↔ ∀ i < v.length, ∀ j < v.length, |v.getD i 0| < |v.getD j 0| → |w.getD i 0| ≤ |w.getD j 0| := by
  have hdesc : ∀ {u hs : List K}, u.length = v.length → Heights u v.length hs → hs.Pairwise (fun a b => b ≤ a) := by
    rintro u hs hu ⟨top, ⟨t1, t2, t3, t4, t5⟩, rfl⟩
    rw [List.pairwise_map]
    refine t4.imp_of_mem fun {i j} hi hj hij => ?_
    rw [sq_abs_getD u (i := i) (by simpa using t3 i hi), sq_abs_getD u (i := j) (by simpa using t3 j hj)] at hij
    exact hij
  constructor
  · rintro ⟨order, o1, o2, o3, rfl, rfl⟩ i hi j hj hij
    have p1 := hdesc rfl h
    have p2 := hdesc hl h'
    rw [List.pairwise_map] at p1 p2
    have hsub : order.toFinset = Finset.range v.length := Finset.eq_of_subset_of_card_le
      (fun i hi => mem_range.2 (o3 i (List.mem_toFinset.1 hi))) (by rw [card_range, List.toFinset_card_of_nodup o1, o2])
    obtain ⟨a, ha, rfl⟩ := List.getElem_of_mem (List.mem_toFinset.1 (hsub ▸ mem_range.2 hi))
    obtain ⟨b, hb, rfl⟩ := List.getElem_of_mem (List.mem_toFinset.1 (hsub ▸ mem_range.2 hj))
    rcases lt_trichotomy a b with q | q | q
    · have := List.pairwise_iff_getElem.1 p1 a b ha hb q
      exact absurd (lt_of_lt_of_le (pow_lt_pow_left₀ hij (abs_nonneg _) two_ne_zero) this) (lt_irrefl _)
    · subst q; exact le_refl _
    · have := List.pairwise_iff_getElem.1 p2 b a hb ha q
      exact (pow_le_pow_iff_left₀ (abs_nonneg _) (abs_nonneg _) two_ne_zero).1 this
  · intro hm
    let rel : Nat → Nat → Prop := fun i j => |v.getD j 0| < |v.getD i 0| ∨ |v.getD j 0| = |v.getD i 0| ∧ |w.getD j 0| ≤ |w.getD i 0|
    have : DecidableRel rel := fun i j => by dsimp only [rel]; infer_instance
    have : Std.Total rel := ⟨fun i j => by
      dsimp only [rel]
      rcases lt_trichotomy |v.getD i 0| |v.getD j 0| with q | q | q
      · exact .inr (.inl q)
      · rcases le_total |w.getD i 0| |w.getD j 0| with q' | q'
        · exact .inr (.inr ⟨q, q'⟩)
        · exact .inl (.inr ⟨q.symm, q'⟩)
      · exact .inl (.inl q)⟩
    have : IsTrans Nat rel := ⟨fun i j k => by
      dsimp only [rel]
      rintro (a | ⟨a, a'⟩) (b | ⟨b, b'⟩)
      · exact .inl (b.trans a)
      · exact .inl (by rw [b]; exact a)
      · exact .inl (by rw [← a]; exact b)
      · exact .inr ⟨b.trans a, b'.trans a'⟩⟩
    set order := List.insertionSort rel (List.range v.length) with ho
    have hp : order.Perm (List.range v.length) := List.perm_insertionSort _ _
    have hs0 : order.Pairwise rel := List.pairwise_insertionSort _ _
    have o1 : order.Nodup := hp.nodup_iff.2 List.nodup_range
    have o2 : order.length = v.length := by rw [hp.length_eq, List.length_range]
    have o3 : ∀ i ∈ order, i < v.length := fun i hi => List.mem_range.1 (hp.mem_iff.1 hi)
    refine ⟨order, o1, o2, o3, heights_perm (List.Perm.refl v) (heights_of_order o1 o2 o3 ?_) h, ?_⟩
    · exact hs0.imp fun q => q.elim le_of_lt (fun q => q.1.le)
    · rw [← hl] at h'
      refine heights_perm (List.Perm.refl w) (heights_of_order o1 (o2.trans hl.symm) (fun i hi => hl ▸ o3 i hi) ?_) h'
      refine hs0.imp_of_mem fun {i j} hi hj q => ?_
      rcases q with q | q
      · exact hm j (o3 j hj) i (o3 i hi) q
      · exact q.2

variable [FloorRing K]

/-- C129. Exactly when the picture of an embedding of a lattice with at most 30 determinants shows at each place the squared amplitudes of one determinant: if no
determinant with the smaller modulus of the isolated amplitude has the larger modulus of the embedded amplitude. -/
theorem C129_compares_iff (fs : FileSys K) (hr : fs.root = true) (d : DataComputations K) (t : Times K) (ht : d.times = some t)
    (hh : CsrShape d.config.nbConf d.ham.data d.ham.indices d.ham.indptr)
    (hc : RectConf d.config d.config.nbh d.config.nbv d.config.nblocs) (hb : constructBasis d.config = .ok d.determinants)
    (hpos : d.config.nholes + d.config.nbeta ≤ d.config.nsites) (h30 : d.determinants.length ≤ 30) (v w : List K) (vs ws : List (List K))
    (hv : columns d.eigenstates.eigvects = v :: vs) (hvl : v.length = d.determinants.length) (ham : Csr K)
    (hham : CsrShape d.config.nbConf ham.data ham.indices ham.indptr) (es : Eigenstates K)
    (hw : columns es.eigvects = w :: ws) (hwl : w.length = d.determinants.length) (o : InputPlotting) (ho : OnlyBars o) (p : Pictures K)
    (hp : latticeDir d.config.nsites ∈ p.dirs) :
    ∃ (P : Pictures K) (hs hs' : List K), generatePlotsConfiguration (savedBoth fs d ham es o) d.config d.bools o p = (P, .ok ()) ∧
      P.file (barsFile d.config.nsites (d.config.nsites - d.config.nholes - d.config.nbeta) d.config.nbeta ".png") = some (.bars hs hs') ∧
      P.file (barsFile d.config.nsites (d.config.nsites - d.config.nholes - d.config.nbeta) d.config.nbeta ".pdf") = some (.bars hs hs') ∧
      (OneDeterminant v w d.determinants.length hs hs' ↔
        ∀ i < d.determinants.length, ∀ j < d.determinants.length, |v.getD i 0| < |v.getD j 0| → |w.getD i 0| ≤ |w.getD j 0|) := by
  obtain ⟨P, hs, hs', h1, h2, h3, h4, h5, _⟩ := C129_saved_partial fs hr d t ht hh hc hb hpos v w vs ws hv hvl ham hham es hw hwl d.config rfl rfl rfl o ho p hp
  rw [min_eq_left h30, ← hvl] at h4 h5
  refine ⟨P, hs, hs', h1, h2, h3, ?_⟩
  rw [← hvl]
  exact oneDeterminant_iff (hwl.trans hvl.symm) h4 h5

end

/-- C132. Exactly when `compute_S2` works with the configuration that a run of `save_phase_space` leaves behind: if all spins were parallel at the start. It then
gives the total spin of the determinants with only up spins. -/
theorem C132_works_iff {K : Type} [Field K] [CharZero K] [DecidableEq K] (S : SetSem) (old : Bool) (E : Env) (c : Config) (nbh nbv nb : Nat)
    (hc : RectConf c nbh nbv nb) (hf : c.Full) (h1 : 1 ≤ c.nholes) (h2 : c.nholes < c.nsites) (hb : c.nbeta ≤ c.nsites - c.nholes)
    (I : Interactions K) (b : BoolInteractions) (nbState nbT nbV : Nat) (p : Pictures K) (hT : 1 ≤ nbT)
    (h : (savePhasePictures old E c I b nbState nbT nbV p).2 = .ok ()) (dets : List (List Nat)) (hd : constructBasis { c with nbeta := 0 } = .ok dets)
    (v : List K) (hv : v.length = dets.length) :
    (∃ w, (savePhasePictures old E c I b nbState nbT nbV p).1.obj.computeS2 S v = .ok w ∧
      ∀ k (hk : k < dets.length), w.getD k 0 = spin2 (amp { c with nbeta := 0 } dets v) (conf { c with nbeta := 0 } dets[k])) ↔
      c.nbeta = 0 ∨ c.nbeta = c.nsites - c.nholes := by
  obtain ⟨k1, k2⟩ := C132_after_sweep_partial S old E c nbh nbv nb hc hf h1 h2 hb I b nbState nbT nbV p hT h v
  constructor
  · rintro ⟨w, hw, _⟩
    by_contra hp
    rw [(k2 hp).1] at hw
    cases hw
  · intro hp
    rw [k1 hp]
    obtain ⟨w, w1, _, w3⟩ := (C40_total_spin_iff S { c with nbeta := 0 } hf (by show c.nholes + 0 ≤ c.nsites; omega) dets hd).2 (.inr (.inl rfl)) v hv
    exact ⟨w, w1, w3⟩

/-- C77. Exactly when two runs of `embedding_blocks` on the same lattice with the same options write the same file: if both have all terms or both leave out some. -/
theorem C77_shared_iff (dyn neel neigh : Bool) (n a b : Int) (s s' : BoolInteractions) :
    savedBlocksFile dyn neel neigh n a b s = savedBlocksFile dyn neel neigh n a b s' ↔ s.full = s'.full := by
  constructor
  · intro h
    unfold savedBlocksFile at h
    have h := List.append_cancel_left (List.append_cancel_left h)
    cases q : s.full <;> cases q' : s'.full
    · rfl
    · rw [q, q'] at h
      exact absurd h (by decide +kernel)
    · rw [q, q'] at h
      exact absurd h (by decide +kernel)
    · rfl
  · intro h
    unfold savedBlocksFile
    rw [h]

/-! ### Cases that meet the hypotheses -/

/-- The hopping and the exchange left out. -/
example : savedBlocksFile true false true 8 4 3 ⟨false, true, true, true, true, true⟩ = savedBlocksFile true false true 8 4 3 ⟨true, true, false, true, true, true⟩ ∧
    savedBlocksFile true false true 8 4 3 ⟨false, true, true, true, true, true⟩ ≠ savedBlocksFile true false true 8 4 3 ⟨true, true, true, true, true, true⟩ :=
  ⟨(C77_shared_iff _ _ _ _ _ _ _ _).2 rfl, fun h => absurd ((C77_shared_iff _ _ _ _ _ _ _ _).1 h) (by decide)⟩


/-- The run of `C63_no_last_results`, in which no change is small. -/
example (r) (h : embeddingBlocks twoEnv sqrtUpTo4 flipSolver 1 ⟨1, 1, 0, 0, 0, 0, 0, 0, 0, 0⟩ (rectConf 1 1 2 4 0) ⟨true, false, true, 0⟩
    [[0, 1, 2, 3]] ⟨1, []⟩ [0] [[1]] 1 3 = .ok r) : ¬ ∃ q, r = .inl q := by
  have h3 := C63_no_last_results.2.2 false
  rw [show (!false) = true from rfl, h] at h3
  rintro ⟨q, rfl⟩
  cases h3
example (r) (h : embeddingBlocks twoEnv sqrtUpTo4 flipSolver 1 ⟨1, 1, 0, 0, 0, 0, 0, 0, 0, 0⟩ (rectConf 1 1 2 4 0) ⟨true, false, true, 0⟩
    [[0, 1, 2, 3]] ⟨1, []⟩ [0] [[1]] 1 3 = .ok r) :=
  C63_returned_iff _ _ _ _ _ _ _ _ _ _ _ [1] rfl _ _ r h

/-- Four up spins in a border of down spins: the interaction with the border is not zero and the stored matrix is not the diagonalised one. -/
example (r) (h : embeddingNeel exEnv sqrtUpTo4 oneSolver 1 exI (rectConf 1 1 2 0 0) [[0, 1, 2, 3]] ⟨1, []⟩ [[1]] 1 5 = .ok r) :=
  C79_neel_iff exEnv sqrtUpTo4 oneSolver 1 exI (rectConf 1 1 2 0 0)
    (rectConf_ok _ _ _ _ _ (by decide) (by decide) (by decide)) (by decide) (by decide) [[0, 1, 2, 3]] oneSolver_good rfl (by decide) ⟨1, []⟩ rfl (by simp)
    [[1]] 1 5 r h

/-- Two determinants: amplitudes in the same order are compared, those in opposite orders are not. -/
example (p : Pictures ℚ) (hp : latticeDir 2 ∈ p.dirs) (ham : Csr ℚ)
    (hham : CsrShape exPairSaved.config.nbConf ham.data ham.indices ham.indptr) :
    (∃ (P : Pictures ℚ) (hs hs' : List ℚ), generatePlotsConfiguration (savedBoth exFs exPairSaved ham ⟨[-1], [some 0], [[1], [2]]⟩ (exBars false))
        exPairSaved.config exPairSaved.bools (exBars false) p = (P, .ok ()) ∧
      P.file "tJ-H2/AmplitudesStaticEmbeddingNeel/tJ-H211.png".toList = some (.bars hs hs') ∧ OneDeterminant [3 / 5, 4 / 5] [1, 2] 2 hs hs') ∧
    ∃ (P : Pictures ℚ) (hs hs' : List ℚ), generatePlotsConfiguration (savedBoth exFs exPairSaved ham ⟨[-1], [some 0], [[2], [1]]⟩ (exBars false))
        exPairSaved.config exPairSaved.bools (exBars false) p = (P, .ok ()) ∧
      P.file "tJ-H2/AmplitudesStaticEmbeddingNeel/tJ-H211.png".toList = some (.bars hs hs') ∧ ¬ OneDeterminant [3 / 5, 4 / 5] [2, 1] 2 hs hs' := by
  have hc : RectConf exPairSaved.config exPairSaved.config.nbh exPairSaved.config.nbv exPairSaved.config.nblocs :=
    rectConf_ok 2 1 1 0 1 (by decide) (by decide) (by decide)
  have hb : constructBasis exPairSaved.config = .ok exPairSaved.determinants := by decide +kernel
  have ho : OnlyBars (exBars false) := ⟨.inr (.inl rfl), rfl, rfl, rfl, rfl⟩
  have hv : columns exPairSaved.eigenstates.eigvects = [3 / 5, 4 / 5] :: [] := by simp [columns, exPairSaved]
  have hw : columns ([[1], [2]] : List (List ℚ)) = [1, 2] :: [] := by simp [columns]
  have hw' : columns ([[2], [1]] : List (List ℚ)) = [2, 1] :: [] := by simp [columns]
  obtain ⟨P, hs, hs', h1, h2, _, h3⟩ := C129_compares_iff exFs rfl exPairSaved ⟨1, 2, 3⟩ rfl exPairSaved_shape hc hb (by decide +kernel) (by decide) _ _ _ _ hv rfl
    ham hham ⟨[-1], [some 0], [[1], [2]]⟩ hw rfl (exBars false) ho p hp
  obtain ⟨Q, gs, gs', g1, g2, _, g3⟩ := C129_compares_iff exFs rfl exPairSaved ⟨1, 2, 3⟩ rfl exPairSaved_shape hc hb (by decide +kernel) (by decide) _ _ _ _ hv rfl
    ham hham ⟨[-1], [some 0], [[2], [1]]⟩ hw' rfl (exBars false) ho p hp
  refine ⟨⟨P, hs, hs', h1, h2, h3.2 (by decide +kernel)⟩, Q, gs, gs', g1, g2, fun hq => ?_⟩
  have := g3.1 hq 0 (by decide) 1 (by decide) (by decide +kernel)
  revert this
  decide +kernel

/-- Four sites with one hole: after the sweep `compute_S2` works from three parallel spins, not from two up spins and a down spin. -/
example (v : List ℚ) (hv : v.length = 4) (b : Nat) (hb : b ≤ 3) :
    (∃ w, (savePhasePictures false exEnv (rectConf 2 2 1 1 b) exI ⟨true, true, true, true, true, true⟩ 2 3 3 phaseTree).1.obj.computeS2 SetSem.listed v = .ok w ∧
      ∀ k (hk : k < (basisList 4 1 0).length), w.getD k 0 =
        spin2 (amp (rectConf 2 2 1 1 0) (basisList 4 1 0) v) (conf (rectConf 2 2 1 1 0) (basisList 4 1 0)[k])) ↔ b = 0 ∨ b = 3 := by
  have hc : RectConf (rectConf 2 2 1 1 b) 2 2 1 := rectConf_ok 2 2 1 1 b (by decide) (by decide) (by decide)
  have hf : (rectConf 2 2 1 1 b).Full := by
    have : (rectConf 2 2 1 1 0).Full := by unfold Config.Full; decide +kernel
    exact this
  have h1 : 1 ≤ (rectConf 2 2 1 1 b).nholes := le_refl 1
  have h2 : (rectConf 2 2 1 1 b).nholes < (rectConf 2 2 1 1 b).nsites := by show 1 < 2 * 2 * 1 * 1; decide
  have hk := (C128_ends_iff false exEnv _ 2 2 1 hc hf h1 h2 exI ⟨true, true, true, true, true, true⟩ 2 3 3 phaseTree (by decide)).1.2
    ⟨by decide, .inl rfl, phaseTree_dir⟩
  exact C132_works_iff SetSem.listed false exEnv (rectConf 2 2 1 1 b) 2 2 1 hc hf h1 h2 hb exI
    ⟨true, true, true, true, true, true⟩ 2 3 3 phaseTree (by decide) hk (basisList 4 1 0) (constructBasis_eq (rectConf 2 2 1 1 0)) v
    (by rw [hv]; decide +kernel)

end TJ
