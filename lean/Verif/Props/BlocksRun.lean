import Verif.Model.BlocksRun
import Verif.Lemmas.EmbedKeep
import Verif.Props.MainRun
import Verif.Props.Embedding6
import Verif.Props.DavidsonGuess

open Finset Matrix

namespace TJ

/-! ### C130 -/

/-- What is added to the entry `(i, j)` of the Hamiltonian of a block next to its neighbours in the state `gs` of energy `en`: on the diagonal the
interaction with the neighbours, everywhere the second-order couplings if asked. -/
noncomputable def addedField (I : Interactions ℝ) (c : Config) (dets : List (List Nat)) (o : BlockOptions ℝ) (gs : List ℝ) (en : ℝ) (i j : Nat) : ℝ :=
  (if i = j then
    (if o.neighbor then rightEnergy I c dets o.reverse gs (gridPos (c.nbh * c.nblocs)) (dets.getD i [])
     else ∑ q ∈ range 4, rightEnergy I c dets o.reverse gs (fun a => (turn (c.nbh * c.nblocs) ^ q) (gridPos (c.nbh * c.nblocs) a)) (dets.getD i []))
   else 0) +
  if o.dynamic then ∑ k : Fin dets.length, ∑ q ∈ range (if o.neighbor then 1 else 4),
    dressing I (fpos (c.nsites + c.nsites) (twoPos (c.nbh * c.nblocs) (c.nbv * c.nblocs))) c.nholes c.nbeta (amp c dets gs) en o.threshold
      (c.nbh * c.nblocs) q (conf c dets[k]) (conf c (dets.getD i [])) (conf c (dets.getD j []))
  else 0

/-- The entry `(i, j)` of the Hamiltonian of a block in the field of its neighbours. -/
noncomputable def fieldEl (D : Data ℝ) (dets : List (List Nat)) (o : BlockOptions ℝ) (en : ℝ) (gs : List ℝ) (i j : Nat) : ℝ :=
  hamEl D.interactions (fun s => gridPos (D.config.nbh * D.config.nblocs) s) D.bools (conf D.config (dets.getD i [])) (conf D.config (dets.getD j [])) +
    addedField D.interactions D.config dets o gs en i j

/-- A file from which the embedding can start: the basis and the Hamiltonian of the block, the energy `e` and the normalised state `gs`. -/
structure StartFile (D : Data ℝ) (dets : List (List Nat)) (L : Loaded ℝ) (e : ℝ) (gs : List ℝ) : Prop where
  determinants : L.determinants = dets
  dim : L.hamDim = dets.length
  columns : ∀ i < dets.length, ∀ p ∈ L.ham.row i, p.1 < dets.length
  ham : ∀ i < dets.length, ∀ j < dets.length, L.ham.entry i j =
    hamEl D.interactions (fun s => gridPos (D.config.nbh * D.config.nblocs) s) D.bools (conf D.config (dets.getD i [])) (conf D.config (dets.getD j []))
  energy : L.eigenstates.eigvals.head? = some e
  state : L.eigenstates.eigvects.map (·.head?) = gs.map some
  length : gs.length = dets.length
  norm : ∑ i ∈ range dets.length, gs.getD i 0 ^ 2 = 1

/-- One iteration: the second state is normalised, its energy is the one in the field of the first, and is not above that of the guess `g` in this field. -/
def FieldStep (D : Data ℝ) (dets : List (List Nat)) (o : BlockOptions ℝ) (g : List ℝ) (x y : ℝ × List ℝ) : Prop :=
  y.2.length = dets.length ∧ ∑ i ∈ range dets.length, y.2.getD i 0 ^ 2 = 1 ∧
    ∑ i ∈ range dets.length, ∑ j ∈ range dets.length, y.2.getD i 0 * fieldEl D dets o x.1 x.2 i j * y.2.getD j 0 = y.1 ∧
    y.1 ≤ ∑ i ∈ range dets.length, ∑ j ∈ range dets.length, g.getD i 0 * fieldEl D dets o x.1 x.2 i j * g.getD j 0

section
variable {K : Type} [Field K] [LinearOrder K] [IsStrictOrderedRing K]

theorem pyGet_zero_inv {α : Type} {l : List α} {x : α} (h : pyGet l 0 = .ok x) : l.head? = some x := by
  have := pyGet_inv h
  cases l with
  | nil => cases this
  | cons a l => simpa using this

/-- The energies and states of the iterations: each pair is related to the one before, the loop ends with the first small change. -/
theorem blockLoop_pairs {E : Env} {sqrt : K → K} {solve : Solver K} {fuel : Nat} {I : Interactions K} {c : Config}
    {su : BlockSetup} {o : BlockOptions K} {dets : List (List Nat)} {ham : SpMat K} {tol : K} {n : Nat} {P : K × List K → SpMat K → Prop} {R : K × List K → K × List K → Prop}
    (hP : ∀ x h, x.2.length = n → blockDressed E I c su o dets ham x.2 x.1 = .ok h → P x h)
    (hS : ∀ x h k vals vects y, P x h → solve k h = .ok (vals, vects) → vals.head? = some y.1 → vects.head? = some y.2 → y.2.length = n ∧ R x y) :
    ∀ (iter k : Nat) (x : K × List K) (b : Bool) (trace : List (BlockStep K)) (r : BlockResult K ⊕ List (BlockStep K)),
      x.2.length = n → blockLoop E sqrt solve fuel I c su o dets ham tol iter k x.2 x.1 b trace = .ok r →
      ∃ l : List (K × List K), (x :: l).IsChain R ∧ l.length ≤ iter ∧
        (∀ t, r = .inr t → l.length = iter ∧ (x :: l).IsChain (fun a b => ¬ SmallChange sqrt tol b.2 a.2)) ∧
        ∀ q, r = .inl q → ∃ p y z, x :: l = p ++ [y, z] ∧ P y q.ham ∧ (∃ m, solve m q.ham = .ok (q.eigvals, q.eigvects)) ∧
          q.eigvals.head? = some z.1 ∧ q.eigvects.head? = some z.2 ∧ SmallChange sqrt tol z.2 y.2 ∧
          (p ++ [y]).IsChain (fun a b => ¬ SmallChange sqrt tol b.2 a.2)
  | 0, k, x, b, trace, r, _, e => by
    cases b with
    | false => cases e
    | true =>
      cases e
      exact ⟨[], .singleton _, le_rfl, fun _ _ => ⟨rfl, .singleton _⟩, fun q h => by cases h⟩
  | iter + 1, k, x, b, trace, r, hl, e => by
    unfold blockLoop at e
    obtain ⟨h, e1, e⟩ := bind_eq_ok.1 e
    obtain ⟨s, e2, e⟩ := bind_eq_ok.1 e
    obtain ⟨g, e3, e⟩ := bind_eq_ok.1 e
    obtain ⟨e0, e4, e⟩ := bind_eq_ok.1 e
    dsimp only at e
    obtain ⟨conv, e5, e⟩ := bind_eq_ok.1 e
    obtain ⟨s1, k', s3⟩ := blockSolve_ok e2
    have hp := hP x h hl e1
    obtain ⟨y1, y2⟩ := hS x h k' _ _ (e0, g) hp s3 (pyGet_zero_inv e4) (pyGet_zero_inv e3)
    cases conv with
    | true =>
      rw [if_pos rfl] at e
      cases e
      refine ⟨[(e0, g)], .cons_cons y2 (.singleton _), by simp, fun t h => (by cases h), ?_⟩
      rintro q ⟨⟩
      exact ⟨[], x, (e0, g), rfl, hp, ⟨k', s3⟩, pyGet_zero_inv e4, pyGet_zero_inv e3, (converged_iff _ _ _ _).1.1 e5, .singleton _⟩
    | false =>
      rw [if_neg (by simp)] at e
      obtain ⟨l, l1, l2, l3, l4⟩ := blockLoop_pairs hP hS iter s.1 (e0, g) true _ r y1 e
      have hno := ((converged_iff _ _ _ _).2.1 e5).2
      refine ⟨(e0, g) :: l, .cons_cons y2 l1, by simpa using l2, ?_, ?_⟩
      · intro t ht
        obtain ⟨a1, a2⟩ := l3 t ht
        exact ⟨by simp [a1], .cons_cons hno a2⟩
      · intro q hq
        obtain ⟨p, y, z, a1, a2, a3, a4, a5, a6, a7⟩ := l4 q hq
        refine ⟨x :: p, y, z, by rw [a1]; rfl, a2, a3, a4, a5, a6, ?_⟩
        cases p with
        | nil =>
          have : y = (e0, g) := by simpa using (List.cons.inj a1).1.symm
          subst this
          exact .cons_cons hno (.singleton _)
        | cons u p =>
          have : u = (e0, g) := by simpa using (List.cons.inj a1).1.symm
          subst this
          exact .cons_cons hno a7

end

theorem entry_outside {K : Type} [AddCommMonoid K] {M : SpMat K} (h : ∀ t ∈ M.coo, t.2.1 < M.dim ∧ t.2.2 < M.dim) {i j : Nat} (hij : ¬ (i < M.dim ∧ j < M.dim)) :
    M.entry i j = 0 := by
  unfold SpMat.entry
  have : M.coo.filter (fun p => p.2.1 = i ∧ p.2.2 = j) = [] := by
    rw [List.filter_eq_nil_iff]
    intro t ht hd
    have hd : t.2.1 = i ∧ t.2.2 = j := by simpa using hd
    have := h t ht
    omega
  rw [this]
  rfl

theorem firstColumn_of_heads {K : Type} {rows : List (List K)} {v : List K} (hv : v ≠ []) (h : rows.map (·.head?) = v.map some) : firstColumn rows = .ok v := by
  unfold firstColumn
  rw [if_neg (by rintro rfl; cases v <;> simp_all)]
  clear hv
  induction rows generalizing v with
  | nil =>
    cases v with
    | nil => rfl
    | cons a v => cases h
  | cons r rows ih =>
    cases v with
    | nil => cases h
    | cons a v =>
      obtain ⟨h1, h2⟩ := List.cons.inj h
      cases r with
      | nil => cases h1
      | cons b r =>
        obtain rfl := Option.some.inj h1
        rw [List.mapM_cons, ih h2]
        rfl

theorem rowsOf_single {K : Type} [Zero K] {n : Nat} {v : List K} (hv : v.length = n) : rowsOf n [v] = v.map (fun x => [x]) := by
  unfold rowsOf
  refine List.ext_getElem (by simp [hv]) fun i h1 h2 => ?_
  have hi : i < v.length := by simpa using h2
  rw [List.getElem_map, List.getElem_map, List.getElem_range]
  simp only [List.map_cons, List.map_nil]
  rw [List.getD_eq_getElem _ _ hi]

/-- What follows for the arguments of the iterations. -/
theorem StartFile.facts {D : Data ℝ} {dets : List (List Nat)} {Ld : Loaded ℝ} {e0 : ℝ} {gs : List ℝ} (hst : StartFile D dets Ld e0 gs)
    (hc : RectConf D.config D.config.nbh D.config.nbv D.config.nblocs) (hf : D.config.Full) (hn : D.config.nholes + D.config.nbeta ≤ D.config.nsites)
    (hb : constructBasis D.config = .ok dets) :
    1 ≤ dets.length ∧ (∃ x ∈ gs, x ≠ 0) ∧ firstColumn Ld.eigenstates.eigvects = .ok gs ∧ (∃ es, Ld.eigenstates.eigvals = e0 :: es) ∧
    (Ld.ham.toCoo Ld.hamDim).dim = dets.length ∧
    (∀ t ∈ (Ld.ham.toCoo Ld.hamDim).coo, t.2.1 < (Ld.ham.toCoo Ld.hamDim).dim ∧ t.2.2 < (Ld.ham.toCoo Ld.hamDim).dim) ∧
    (∀ i < dets.length, ∀ j < dets.length, (Ld.ham.toCoo Ld.hamDim).entry i j =
      hamEl D.interactions (fun s => gridPos (D.config.nbh * D.config.nblocs) s) D.bools (conf D.config (dets.getD i [])) (conf D.config (dets.getD j []))) ∧
    (Ld.ham.toCoo Ld.hamDim).Sym := by
  -- the state of the file
  obtain ⟨i0, hi0, hg0⟩ : ∃ i < dets.length, gs.getD i 0 ≠ 0 := by
    by_contra hcon
    push Not at hcon
    have := hst.norm
    rw [sum_eq_zero (fun i hi => by rw [hcon i (mem_range.1 hi)]; norm_num)] at this
    exact zero_ne_one this
  have hpos : 1 ≤ dets.length := by omega
  have hgne : gs ≠ [] := by rintro rfl; have := hst.length; simp at this; omega
  have hnzs : ∃ x ∈ gs, x ≠ 0 := by
    refine ⟨gs[i0]'(by rw [hst.length]; exact hi0), List.getElem_mem _, ?_⟩
    rwa [List.getD_eq_getElem _ _ (by rw [hst.length]; exact hi0)] at hg0
  have hfirst := firstColumn_of_heads hgne hst.state
  have hes : ∃ es, Ld.eigenstates.eigvals = e0 :: es := by
    have := hst.energy
    cases h : Ld.eigenstates.eigvals with
    | nil => rw [h] at this; cases this
    | cons a l => rw [h] at this; exact ⟨l, by rw [Option.some.inj this]⟩
  -- the matrix of the file
  have hdimM : (Ld.ham.toCoo Ld.hamDim).dim = dets.length := hst.dim
  have hin : ∀ t ∈ (Ld.ham.toCoo Ld.hamDim).coo, t.2.1 < (Ld.ham.toCoo Ld.hamDim).dim ∧ t.2.2 < (Ld.ham.toCoo Ld.hamDim).dim := by
    refine toCoo_bounds _ _ fun i hi p hp => ?_
    rw [hst.dim] at hi ⊢
    exact hst.columns i hi p hp
  have hent : ∀ i < dets.length, ∀ j < dets.length, (Ld.ham.toCoo Ld.hamDim).entry i j =
      hamEl D.interactions (fun s => gridPos (D.config.nbh * D.config.nblocs) s) D.bools (conf D.config (dets.getD i [])) (conf D.config (dets.getD j [])) := by
    intro i hi j hj
    rw [toCoo_entry _ _ (by rw [hst.dim]; exact hi), hst.ham i hi j hj]
  obtain ⟨H, h1, h2, _, _⟩ := buildHamiltonian_spec D.interactions (hc.tj exEnv) hf hn hb D.bools [] true
  have hel := C31_matrix_elements exEnv D.config _ _ _ hc hf hn D.interactions D.bools [] true dets hb H h1
  have hsymM : (Ld.ham.toCoo Ld.hamDim).Sym := by
    intro i j
    by_cases hij : i < dets.length ∧ j < dets.length
    · rw [hent i hij.1 j hij.2, hent j hij.2 i hij.1]
      have a := hel i j hij.1 hij.2
      have b := hel j i hij.2 hij.1
      rw [C32_symmetric exEnv D.config _ _ _ hc hf hn D.interactions D.bools [] true dets hb H h1] at b
      simp only [List.getD_eq_getElem _ _ hij.1, List.getD_eq_getElem _ _ hij.2]
      exact a.symm.trans b
    · rw [entry_outside hin (by rw [hdimM]; exact hij), entry_outside hin (by rw [hdimM]; exact fun h => hij h.symm)]
  exact ⟨hpos, hnzs, hfirst, hes, hdimM, hin, hent, hsymM⟩

/-- C130, part. From a file with the results of the isolated block (or, with `neel`, of the Néel embedding), `embedding_blocks` ends without an exception,
whatever the lattice, the filling, the couplings and the tolerances, for every library with exact QR decompositions, exact eigenvectors and random arrays of
the right size: the first state is the one of the file, the energy of every other state is the one in the field of the state before, where it is not above the energy of
the first state. If a change is
small the run stops there, and leaves a file from which its energy, its state and the Hamiltonian in the field of the state before are
loaded; otherwise `None` is returned and no file is changed. The hypothesis `hE` holds by C120. What is missing is listed in `C130_guess_fails`, `C130_other_switches` and
`C62_reversed_fails`. -/
theorem C130_blocks_partial (E : Env) (srt : List (Nat × ℝ) → List (Nat × ℝ)) (hsrt : RowSort srt) (fs : FileSys ℝ) (hroot : fs.root = true) (D : Data ℝ)
    (hc : RectConf D.config D.config.nbh D.config.nbv D.config.nblocs) (hf : D.config.Full) (hn : D.config.nholes + D.config.nbeta ≤ D.config.nsites)
    (hguess : D.diag.guess = none) (hstp : 1 ≤ D.diag.stp) (sqrt : ℝ → ℝ) (L : Nat → LinAlg ℝ) (hq : ∀ k, (L k).ExactQr)
    (hei : ∀ k, (L k).ExactEigh) (he0 : ∀ k n M i, ((L k).eigh n M).2 i ≠ 0) (hrand : ∀ k d m, ((L k).rand d m).length = m) (fuel : Nat)
    (neel : Bool) (o : BlockOptions ℝ) (hr : o.dynamic = true → o.reverse = false ∨ D.config.nalpha = D.config.nbeta)
    (hsq : o.neighbor = false → D.config.nbh * D.config.nblocs = D.config.nbv * D.config.nblocs) (dets : List (List Nat))
    (hb : constructBasis D.config = .ok dets)
    (hE : ∀ su, blockSetup E.toSetSem D.config dets o.reverse = .ok su →
      GeomLattice E su.cE (twoPos (D.config.nbh * D.config.nblocs) (D.config.nbv * D.config.nblocs)))
    (Ld : Loaded ℝ) (hload : fs.load (blocksStart neel D.config.nsites D.config.nalpha D.config.nbeta D.bools) = .ok Ld) (e0 : ℝ) (gs : List ℝ)
    (hst : StartFile D dets Ld e0 gs) (tol : ℝ) (maxIter : Nat) (hm : 1 ≤ maxIter) :
    ∃ fs' res l, blocksOnDisk E sqrt srt (fun g => davidsonSolver L 1 (some g) D.diag.stp D.diag.tol D.diag.dimMax) (fuel + 1) fs D neel o tol maxIter =
        (fs', .ok res) ∧ ((e0, gs) :: l).IsChain (FieldStep D dets o gs) ∧ l.length ≤ maxIter ∧
      (res = none → fs' = fs ∧ l.length = maxIter ∧ ((e0, gs) :: l).IsChain (fun a b => ¬ SmallChange sqrt tol b.2 a.2)) ∧
      (∀ p, p ≠ savedBlocksFile o.dynamic neel o.neighbor D.config.nsites D.config.nalpha D.config.nbeta D.bools → fs'.load p = fs.load p) ∧
      ∀ d, res = some d → ∃ p x y P, (e0, gs) :: l = p ++ [x, y] ∧ SmallChange sqrt tol y.2 x.2 ∧
        (p ++ [x]).IsChain (fun a b => ¬ SmallChange sqrt tol b.2 a.2) ∧
        fs'.load (savedBlocksFile o.dynamic neel o.neighbor D.config.nsites D.config.nalpha D.config.nbeta D.bools) = .ok P ∧ SameData P d ∧
        P.determinants = dets ∧ P.eigenstates.eigvals = [y.1] ∧ P.eigenstates.eigvects = y.2.map (fun z => [z]) ∧
        ∀ i < dets.length, ∀ j < dets.length, csrSum P.ham.data P.ham.indices P.ham.indptr i j = fieldEl D dets o x.1 x.2 i j := by
  have hdim := C02_dimension D.config dets hb
  have hnz : D.config.nsites ≠ 0 := by
    have h1 := hc.spec.1
    have h4 := Nat.mul_pos (Nat.mul_pos hc.hh hc.hb) (Nat.mul_pos hc.hv hc.hb)
    omega
  obtain ⟨hpos, hnzs, hfirst, ⟨es, hes⟩, hdimM, hin, hent, hsymM⟩ := hst.facts hc hf hn hb
  set M := Ld.ham.toCoo Ld.hamDim with hM
  set solve := davidsonSolver L 1 (some gs) D.diag.stp D.diag.tol D.diag.dimMax with hsolve
  -- the run
  obtain ⟨res, hres⟩ : ∃ r, embeddingBlocks E sqrt solve (fuel + 1) D.interactions D.config o dets M (e0 :: es) [gs] tol maxIter = .ok r := by
    cases ho : o.dynamic with
    | false =>
      exact C93_blocks_return E sqrt L hq he0 hrand fuel D.interactions D.config hc hf dets hb hn o ho hsq hE M hdimM hin e0 es gs [] hst.length hnzs
        D.diag.stp D.diag.dimMax hstp D.diag.tol tol maxIter hm
    | true =>
      exact C107_dynamic_returns E sqrt L hq he0 hrand fuel D.interactions D.config hc hf dets hb hn o ho (hr ho) hsq hE M hdimM hin e0 es gs [] hst.length hnzs
        D.diag.stp D.diag.dimMax hstp D.diag.tol tol maxIter hm
  have hrun : (do
      let g ← firstColumn Ld.eigenstates.eigvects
      embeddingBlocks E sqrt (davidsonSolver L 1 (some g) D.diag.stp D.diag.tol D.diag.dimMax) (fuel + 1) D.interactions D.config o Ld.determinants M
        Ld.eigenstates.eigvals [g] tol maxIter : Py (BlockResult ℝ ⊕ List (BlockStep ℝ))) = .ok res := by
    refine bind_eq_ok.2 ⟨gs, hfirst, ?_⟩
    rw [hst.determinants, hes]
    exact hres
  -- one iteration
  let P : ℝ × List ℝ → SpMat ℝ → Prop := fun x h => h.dim = dets.length ∧ h.Sym ∧ (∀ t ∈ h.coo, t.2.1 < h.dim ∧ t.2.2 < h.dim) ∧
    ∀ i < dets.length, ∀ j < dets.length, h.entry i j = fieldEl D dets o x.1 x.2 i j
  have hres' := hres
  unfold embeddingBlocks at hres'
  obtain ⟨gs', g1, hres'⟩ := bind_eq_ok.1 hres'
  obtain ⟨e0', g2, hres'⟩ := bind_eq_ok.1 hres'
  obtain ⟨su, hsu, hres'⟩ := bind_eq_ok.1 hres'
  obtain rfl := Option.some.inj (pyGet_inv g1)
  obtain rfl := Option.some.inj (pyGet_inv g2)
  have hP : ∀ x h, x.2.length = dets.length → blockDressed E D.interactions D.config su o dets M x.2 x.1 = .ok h → P x h := by
    intro x h hl e
    obtain ⟨b1, b2⟩ := blockDressed_bounds hin e
    refine ⟨b1.trans hdimM, blockDressed_sym hsymM e, b2, fun i hi j hj => ?_⟩
    unfold fieldEl addedField
    rw [← hent i hi j hj]
    cases ho : o.dynamic with
    | false =>
      have := (blockDressed_static E D.interactions (blockSetup_geom E.toSetSem hc hsu) (hE su hsu) hb hn o ho hsq M h x.2 hl x.1 e).2 i j hi
      rw [this]
      simp only [List.getD_eq_getElem _ _ hi, Bool.false_eq_true, if_false, add_zero]
    | true =>
      obtain ⟨h', m1, m2, m3⟩ := blockDressed_dynamic E D.interactions hc hf hn hb o ho (hr ho) hsu (hE su hsu) hsq M hdimM hin x.2 hl x.1
      obtain rfl := Except.ok.inj (m1.symm.trans e)
      rw [m3 i j hi hj, add_assoc]
      simp only [List.getD_eq_getElem _ _ hi, List.getD_eq_getElem _ _ hj, if_true]
  have hortho : ∀ {n : Nat}, n = dets.length → Ortho [fun i : Fin n => gs.getD i 0] := by
    rintro n rfl
    rw [ortho_iff]
    refine ⟨fun v hv => ?_, by simp⟩
    rw [List.mem_singleton.1 hv, dotProduct, Fin.sum_univ_eq_sum_range (fun i => gs.getD i 0 * gs.getD i 0)]
    rw [← hst.norm]
    exact sum_congr rfl fun i _ => by ring
  have hS : ∀ x h k vals vects, P x h → solve k h = .ok (vals, vects) → ∃ y : ℝ × List ℝ, vals = [y.1] ∧ vects = [y.2] ∧ FieldStep D dets o gs x y := by
    intro x h k vals vects hp hs
    obtain ⟨hd, hsy, _, hel'⟩ := hp
    rw [hsolve] at hs
    unfold davidsonSolver at hs
    obtain ⟨q, q1, q2⟩ := bind_eq_ok.1 hs
    obtain ⟨q3, q4⟩ := Prod.mk.inj (Except.ok.inj q2)
    have hsym : h.toMatrix.IsSymm := by
      ext i j
      exact hsy _ _
    obtain ⟨o1, _, o3, _⟩ := C51_ritz_bounds (L k) (hei k) (hq k) h.toMatrix hsym 1 _ D.diag.stp D.diag.tol D.diag.dimMax q q1
      (Or.inr (Or.inl ⟨_, rfl, hortho hd⟩))
    have c50 := C50_converged (L k) h.toMatrix 1 _ D.diag.stp D.diag.tol D.diag.dimMax q q1
    have hl1 : q.eigvals.length = 1 := by
      rw [c50.1]
      split_ifs <;> omega
    obtain ⟨z, hz⟩ := List.length_eq_one_iff.1 hl1
    obtain ⟨v, hv⟩ := List.length_eq_one_iff.1 (c50.2.1.trans hl1)
    refine ⟨(z, List.ofFn v), by rw [← q3, hz], by rw [← q4, hv]; rfl, ?_⟩
    have hforms := sum_forms hd h.toMatrix (fun i j => fieldEl D dets o x.1 x.2 i j)
      (fun i j => hel' i (lt_of_lt_of_eq i.2 hd) j (lt_of_lt_of_eq j.2 hd)) v
    refine ⟨by simp [hd], ?_, ?_, ?_⟩
    · rw [hforms.1]
      exact ((ortho_iff _).1 o1).1 _ (by rw [hv]; simp)
    rotate_left
    · have hg := C67_guess (L k) (hei k) (hq k) h.toMatrix hsym 1 _ D.diag.stp D.diag.tol D.diag.dimMax (Or.inr (hortho hd)) q q1 (by omega)
        (fun i => gs.getD i 0) ⟨fun _ => 1, by simp⟩
      have hone := ((ortho_iff _).1 (hortho hd)).1 _ (List.mem_singleton.2 rfl)
      rw [hone, mul_one] at hg
      have hgs : List.ofFn (fun i : Fin h.dim => gs.getD i 0) = gs := by
        refine List.ext_getElem (by simp [hd, hst.length]) fun i h1 h2 => ?_
        simp [h2]
      have := (sum_forms hd h.toMatrix (fun i j => fieldEl D dets o x.1 x.2 i j)
        (fun i j => hel' i (lt_of_lt_of_eq i.2 hd) j (lt_of_lt_of_eq j.2 hd)) (fun i => gs.getD i 0)).2
      rw [hgs] at this
      rw [this]
      simpa [hz] using hg
    · show ∑ i ∈ range dets.length, ∑ j ∈ range dets.length, (List.ofFn v).getD i 0 * fieldEl D dets o x.1 x.2 i j * (List.ofFn v).getD j 0 = z
      rw [hforms.2]
      have := o3 0 (by omega) (by rw [hv]; simp)
      simpa [hv, hz] using this
  obtain ⟨l, l1, l2, l3, l4⟩ := blockLoop_pairs (P := P) (R := FieldStep D dets o gs) hP (by
    intro x h k vals vects y hp hs hy1 hy2
    obtain ⟨y', a1, a2, a3⟩ := hS x h k vals vects hp hs
    have : y = y' := by
      rw [a1] at hy1
      rw [a2] at hy2
      exact Prod.ext (Option.some.inj hy1).symm (Option.some.inj hy2).symm
    rw [this]
    exact ⟨a3.1, a3⟩) maxIter 0 (e0, gs) false [] res hst.length hres'
  cases res with
  | inr t =>
    refine ⟨fs, none, l, ?_, l1, l2, fun _ => ⟨rfl, l3 t rfl⟩, fun _ _ => rfl, fun d h => by cases h⟩
    unfold blocksOnDisk
    rw [hload]
    dsimp only
    rw [← hM, hrun]
  | inl q =>
    obtain ⟨p, y, z, a1, ⟨d1, d2, d3, d4⟩, ⟨k, a3⟩, a4, a5, a6, a7⟩ := l4 q rfl
    obtain ⟨z', b1, b2, b3⟩ := hS y q.ham k _ _ ⟨d1, d2, d3, d4⟩ a3
    have hz : z = z' := by
      rw [b1] at a4
      rw [b2] at a5
      exact Prod.ext (Option.some.inj a4).symm (Option.some.inj a5).symm
    subst hz
    obtain ⟨s1, ⟨P', s2, s3, _⟩, s4⟩ := C89_blocks_partial fs hroot (blocksData srt D Ld q) hnz hguess
      (show CsrShape D.config.nbConf _ _ _ by rw [← hdim, ← d1]; exact (toCsr_canonical hsrt q.ham d3).shape) o.dynamic neel o.neighbor
    refine ⟨(saveBlocks fs (blocksData srt D Ld q) o.dynamic neel o.neighbor).1, some (blocksData srt D Ld q), l, ?_, l1, l2, fun h => (by cases h), s4, ?_⟩
    · unfold blocksOnDisk
      rw [hload]
      dsimp only
      rw [← hM, hrun]
      dsimp only
      have hpair : saveBlocks fs (blocksData srt D Ld q) o.dynamic neel o.neighbor =
          ((saveBlocks fs (blocksData srt D Ld q) o.dynamic neel o.neighbor).1, .ok ()) := Prod.ext rfl s1
      rw [hpair]
    · rintro d ⟨⟩
      refine ⟨p, y, z, P', a1, a6, a7, s2, s3, ?_, ?_, ?_, ?_⟩
      · rw [s3.determinants]; exact hst.determinants
      · rw [s3.eigenstates]; exact b1
      · rw [s3.eigenstates]
        show rowsOf Ld.hamDim q.eigvects = _
        rw [b2, hst.dim, rowsOf_single b3.1]
      · intro i hi j hj
        rw [s3.ham]
        show csrSum (q.ham.toCsr srt).data (q.ham.toCsr srt).indices (q.ham.toCsr srt).indptr i j = _
        rw [toCsr_csrSum hsrt q.ham d3 (by omega), d4 i hi j hj]

/-- C130, part: the file that `perform_initial_computations` saves for the isolated block is one from which the embedding can start, if all switches are
on and at least two states were asked for (otherwise the state need not be normalised, see C51); its energy is that of its state. -/
theorem C130_isolated_start_partial (E : Env) (R : RunLib) (hsrt : RowSort R.srt) (fs : FileSys ℝ) (hroot : fs.root = true) (D : Data ℝ)
    (hc : RectConf D.config D.config.nbh D.config.nbv D.config.nblocs) (hf : D.config.Full) (hn : D.config.nholes + D.config.nbeta ≤ D.config.nsites)
    (hs : D.bools.bt ∧ D.bools.bij ∧ D.bools.bSD ∧ D.bools.btN ∧ D.bools.bV) (hq : R.lin.ExactQr) (hei : R.lin.ExactEigh)
    (r : InitialResult) (h : performInitial E R.lin R.swap D = .ok r)
    (hmin : 1 < min D.diag.nbVal (if D.diag.dimMax = 0 then r.determinants.length else D.diag.dimMax)) :
    (saveDataFs fs (r.toData R D)).1.root = true ∧ constructBasis D.config = .ok r.determinants ∧ 1 ≤ D.diag.stp ∧
    ∃ Ld e gs, (saveDataFs fs (r.toData R D)).1.load (blocksStart false D.config.nsites D.config.nalpha D.config.nbeta D.bools) = .ok Ld ∧
      r.eig.eigvals.head? = some e ∧ StartFile D r.determinants Ld e gs ∧
      ∑ i ∈ range r.determinants.length, ∑ j ∈ range r.determinants.length, gs.getD i 0 * hamEl D.interactions (fun s => gridPos (D.config.nbh * D.config.nblocs) s)
        D.bools (conf D.config (r.determinants.getD i [])) (conf D.config (r.determinants.getD j [])) * gs.getD j 0 = e := by
  obtain ⟨hb, hham, ⟨guess, hdav, _⟩, _⟩ := performInitial_ok h
  have hnz : D.config.nsites ≠ 0 := by
    have h1 := hc.spec.1
    have h4 := Nat.mul_pos (Nat.mul_pos hc.hh hc.hb) (Nat.mul_pos hc.hv hc.hb)
    omega
  obtain ⟨hH', e1, e2, _, _⟩ := buildHamiltonian_spec D.interactions (hc.tj E) hf hn hb D.bools [] true
  obtain rfl := Except.ok.inj (hham.symm.trans e1)
  have hel := C31_matrix_elements E D.config _ _ _ hc hf hn D.interactions D.bools [] true r.determinants hb r.ham hham
  have hsymM := C32_symmetric E D.config _ _ _ hc hf hn D.interactions D.bools [] true r.determinants hb r.ham hham
  have hdim := C02_dimension D.config r.determinants hb
  obtain ⟨w1, ⟨Ld, l1, l2, _⟩, _⟩ := C90_chain_partial fs hroot (r.toData R D) R.times rfl hnz
    (show CsrShape D.config.nbConf _ _ _ by rw [← hdim, ← e2]; exact (toCsr_canonical hsrt r.ham (build_bounds hham)).shape) hs
  have hroot1 : (saveDataFs fs (r.toData R D)).1.root = true := by
    unfold saveDataFs writeJson
    dsimp only
    split_ifs
    · cases (saveData (r.toData R D)).map (·.2) <;> exact hroot
    · exact hroot
  have hstp : 1 ≤ D.diag.stp := by
    by_contra h0
    have h0 : D.diag.stp = 0 := by omega
    rw [h0] at hdav
    cases hdav
  have c50 := C50_converged R.lin r.ham.toMatrix D.diag.nbVal guess D.diag.stp D.diag.tol D.diag.dimMax r.eig hdav
  have hlen : 1 ≤ r.eig.eigvals.length := by
    rw [c50.1, e2]
    omega
  obtain ⟨g0, grest, hg⟩ : ∃ g rest, r.eig.eigvects = g :: rest := by
    cases hge : r.eig.eigvects with
    | nil => rw [hge] at c50; simp at c50; omega
    | cons g rest => exact ⟨g, rest, rfl⟩
  obtain ⟨y0, yrest, hy⟩ : ∃ y rest, r.eig.eigvals = y :: rest := by
    cases hge : r.eig.eigvals with
    | nil => rw [hge] at hlen; simp at hlen
    | cons g rest => exact ⟨g, rest, rfl⟩
  have hsym : r.ham.toMatrix.IsSymm := by
    ext i j
    exact (hsymM i j).symm
  obtain ⟨o1, _, o3, _⟩ := C51_ritz_bounds R.lin hei hq r.ham.toMatrix hsym D.diag.nbVal _ D.diag.stp D.diag.tol D.diag.dimMax r.eig hdav
    (Or.inl (by rw [e2]; exact hmin))
  have d2 : Ld.ham = r.ham.toCsr R.srt := l2.ham
  refine ⟨hroot1, hb, hstp, Ld, y0, List.ofFn g0, l1, by rw [hy]; rfl, ⟨l2.determinants, l2.hamDim.trans hdim.symm, ?_, ?_, ?_, ?_, by simp [e2], ?_⟩, ?_⟩
  · intro i hi p hp
    rw [d2, toCsr_row R.srt r.ham (by omega)] at hp
    have := row_lt hsrt (build_bounds hham) hp
    omega
  · intro i hi j hj
    rw [d2, toCsr_entry hsrt _ (by omega), hel i j hi hj]
    simp only [List.getD_eq_getElem _ _ hi, List.getD_eq_getElem _ _ hj]
  · rw [l2.eigenstates]
    show r.eig.eigvals.head? = _
    rw [hy]; rfl
  · rw [l2.eigenstates]
    show (List.ofFn (fun i => r.eig.eigvects.map (fun v => v i))).map (·.head?) = _
    rw [hg, List.ofFn_eq_map, List.ofFn_eq_map, List.map_map, List.map_map]
    rfl
  · rw [(sum_forms e2 r.ham.toMatrix (fun i j => r.ham.entry i j) (fun _ _ => rfl) g0).1]
    exact ((ortho_iff _).1 o1).1 _ (by rw [hg]; simp)
  · rw [(sum_forms e2 r.ham.toMatrix _ (fun i j => ?_) g0).2]
    · have := o3 0 (by omega) (by rw [hg]; simp)
      simpa [hg, hy] using this
    · have hi : (i : Nat) < r.determinants.length := lt_of_lt_of_eq i.2 e2
      have hj : (j : Nat) < r.determinants.length := lt_of_lt_of_eq j.2 e2
      simp only [List.getD_eq_getElem _ _ hi, List.getD_eq_getElem _ _ hj]
      exact hel i j hi hj

/-- C130: `embedding_neel` starts from the same file, and leaves one from which `embedding_blocks` can start with `neel_embedding`; the file from which
it started is kept. -/
theorem C130_neel_start_partial (E : Env) (fs : FileSys ℝ) (hroot : fs.root = true) (D : Data ℝ)
    (hc : RectConf D.config D.config.nbh D.config.nbv D.config.nblocs) (hf : D.config.Full) (hn : D.config.nholes + D.config.nbeta ≤ D.config.nsites)
    (hW : 2 ≤ D.config.nbh * D.config.nblocs) (hH : 2 ≤ D.config.nbv * D.config.nblocs) (hguess : D.diag.guess = none) (hstp : 1 ≤ D.diag.stp)
    (sqrt : ℝ → ℝ) (L : Nat → LinAlg ℝ) (hq : ∀ k, (L k).ExactQr) (hei : ∀ k, (L k).ExactEigh) (he0 : ∀ k n M i, ((L k).eigh n M).2 i ≠ 0)
    (hrand : ∀ k d m, ((L k).rand d m).length = m) (hr0 : ∀ k d, 1 ≤ d → ∀ v ∈ (L k).rand d 1, v ≠ 0) (dets : List (List Nat))
    (hb : constructBasis D.config = .ok dets) (nbVal : Nat) (hnb : nbVal ≤ dets.length)
    (hmin : 1 < min nbVal (if D.diag.dimMax = 0 then dets.length else D.diag.dimMax)) (fuel : Nat)
    (Ld : Loaded ℝ) (hload : fs.load (blocksStart false D.config.nsites D.config.nalpha D.config.nbeta D.bools) = .ok Ld) (e0 : ℝ) (gs : List ℝ)
    (hst : StartFile D dets Ld e0 gs) (tol : ℝ) (maxIter : Nat) (hm : 1 ≤ maxIter) :
    ∃ fs' d P e v, neelOnDisk E sqrt (davidsonSolver L nbVal none D.diag.stp D.diag.tol D.diag.dimMax) (fuel + 1) fs D tol maxIter = (fs', .ok d) ∧
      fs'.root = true ∧ fs'.load (blocksStart true D.config.nsites D.config.nalpha D.config.nbeta D.bools) = .ok P ∧ SameData P d ∧
      StartFile D dets P e v ∧ ∀ p, p ≠ blocksStart true D.config.nsites D.config.nalpha D.config.nbeta D.bools → fs'.load p = fs.load p := by
  have hnz : D.config.nsites ≠ 0 := by
    have h1 := hc.spec.1
    have h4 := Nat.mul_pos (Nat.mul_pos hc.hh hc.hb) (Nat.mul_pos hc.hv hc.hb)
    omega
  have hdim := C02_dimension D.config dets hb
  obtain ⟨hpos, hnzs, hfirst, ⟨es, hes⟩, hdimM, hin, hent, hsymM⟩ := hst.facts hc hf hn hb
  set M := Ld.ham.toCoo Ld.hamDim with hM
  obtain ⟨res, hres⟩ := C92_neel_returns E sqrt L hq he0 hrand hr0 fuel D.interactions D.config hc hW hH dets hb hn M hdimM hin
    gs hst.length [] nbVal D.diag.stp D.diag.dimMax (by omega) hnb hstp D.diag.tol tol maxIter hm
  obtain ⟨_, k, x, x1, x2⟩ := C79_neel_isolated E sqrt _ _ _ _ _ _ _ _ _ _ hres
  obtain ⟨f2, f3⟩ := C60_neel E sqrt _ _ _ _ _ _ hsymM _ _ _ _ hres x (List.mem_of_getLast? x1)
  obtain ⟨q, q1, q2⟩ := bind_eq_ok.1 x2
  obtain ⟨q3, q4⟩ := Prod.mk.inj (Except.ok.inj q2)
  have hxd : x.ham.dim = dets.length := f2.trans hdimM
  have hsym : x.ham.toMatrix.IsSymm := by
    ext i j
    exact f3 _ _
  obtain ⟨o1, _⟩ := C51_ritz_bounds (L k) (hei k) (hq k) x.ham.toMatrix hsym nbVal _ D.diag.stp D.diag.tol D.diag.dimMax q q1
    (Or.inl (by rw [hxd]; exact hmin))
  have c50' := C50_converged (L k) x.ham.toMatrix nbVal _ D.diag.stp D.diag.tol D.diag.dimMax q q1
  have hql : 1 ≤ q.eigvals.length := by rw [c50'.1, hxd]; omega
  obtain ⟨v0, vrest, hv0⟩ : ∃ g rest, q.eigvects = g :: rest := by
    cases hge : q.eigvects with
    | nil => have := c50'.2.1; rw [hge] at this; simp at this; rw [← this] at hql; simp at hql
    | cons g rest => exact ⟨g, rest, rfl⟩
  obtain ⟨z0, zrest, hz⟩ : ∃ y rest, q.eigvals = y :: rest := by
    cases hge : q.eigvals with
    | nil => rw [hge] at hql; simp at hql
    | cons g rest => exact ⟨g, rest, rfl⟩
  have r1 : res.eigvals = z0 :: zrest := by rw [← q3, hz]
  have r2 : res.eigvects = List.ofFn v0 :: vrest.map List.ofFn := by rw [← q4, hv0, List.map_cons]
  have hvl : (List.ofFn v0).length = dets.length := by simp [hxd]
  obtain ⟨s1, ⟨P, s2, s3, _⟩, s4⟩ := C89_peripheral_partial fs hroot (neelData D Ld res) hnz hguess
    (show CsrShape D.config.nbConf Ld.ham.data Ld.ham.indices Ld.ham.indptr by rw [← hdim, ← hst.dim]; exact load_shape hload)
  have hpath : blocksStart true D.config.nsites D.config.nalpha D.config.nbeta D.bools =
      savedPeripheralFile D.config.nsites D.config.nalpha D.config.nbeta D.bools := rfl
  refine ⟨(savePeripheral fs (neelData D Ld res)).1, neelData D Ld res, P, z0, List.ofFn v0, ?_, ?_, s2, s3, ⟨?_, ?_, ?_, ?_, ?_, ?_, hvl, ?_⟩, s4⟩
  · unfold neelOnDisk
    have hload' : fs.load (loadName D.config.nsites D.config.nalpha D.config.nbeta D.bools) = .ok Ld := hload
    rw [hload']
    dsimp only
    have hrun : (do
        let gs ← firstColumn Ld.eigenstates.eigvects
        let r ← embeddingNeel E sqrt (davidsonSolver L nbVal none D.diag.stp D.diag.tol D.diag.dimMax) (fuel + 1) D.interactions D.config Ld.determinants
          (Ld.ham.toCoo Ld.hamDim) [gs] tol maxIter
        let _ ← pyGet Ld.eigenstates.eigvals 0
        let _ ← pyGet r.eigvals 0
        return r : Py (NeelResult ℝ)) = .ok res := by
      refine bind_eq_ok.2 ⟨_, hfirst, bind_eq_ok.2 ⟨res, ?_, ?_⟩⟩
      · rw [hst.determinants]; exact hres
      · rw [hes, r1]; rfl
    rw [hrun]
    dsimp only
    have hpair : savePeripheral fs (neelData D Ld res) = ((savePeripheral fs (neelData D Ld res)).1, .ok ()) := Prod.ext rfl s1
    rw [hpair]
  · unfold savePeripheral
    generalize embeddingContent (neelData D Ld res) = content
    obtain ⟨fs'', t1, _, _, _, t5⟩ := saveIn_eq hroot "Peripheral_embedding".toList
      (savedPeripheralFile (neelData D Ld res).config.nsites (neelData D Ld res).config.nalpha (neelData D Ld res).config.nbeta (neelData D Ld res).bools) content
    rw [t5]
    cases content <;> exact t1
  · rw [s3.determinants]; exact hst.determinants
  · exact s3.hamDim.trans hdim.symm
  · intro i hi p hp
    rw [s3.ham] at hp
    exact hst.columns i hi p hp
  · intro i hi j hj
    rw [s3.ham]
    exact hst.ham i hi j hj
  · rw [s3.eigenstates]
    show res.eigvals.head? = _
    rw [r1]; rfl
  · rw [s3.eigenstates]
    show (rowsOf Ld.hamDim res.eigvects).map (·.head?) = _
    rw [hst.dim, r2]
    unfold rowsOf
    rw [List.map_map]
    refine List.ext_getElem (by simp [hxd]) fun i h1 h2 => ?_
    have hi : i < (List.ofFn v0).length := by simpa using h2
    rw [List.getElem_map, List.getElem_map, List.getElem_range]
    show some ((List.ofFn v0).getD i 0) = _
    rw [List.getD_eq_getElem _ _ hi]
  · rw [(sum_forms hxd x.ham.toMatrix (fun i j => x.ham.entry i j) (fun _ _ => rfl) v0).1]
    exact ((ortho_iff _).1 o1).1 _ (by rw [hv0]; simp)

/-- C130 fails without a file: nothing is written. -/
theorem C130_no_file {K : Type} [Field K] [LinearOrder K] (E : Env) (sqrt : K → K) (srt : List (Nat × K) → List (Nat × K)) (solver : List K → Solver K)
    (fuel : Nat) (fs : FileSys K) (D : Data K) (neel : Bool) (o : BlockOptions K) (tol : K) (maxIter : Nat)
    (h : fs.file (blocksStart neel D.config.nsites D.config.nalpha D.config.nbeta D.bools) = none) :
    blocksOnDisk E sqrt srt solver fuel fs D neel o tol maxIter = (fs, .error .os) := by
  unfold blocksOnDisk FileSys.load
  rw [h]

/-- C130 fails: with other switches the saved results of the isolated block are not found. -/
theorem C130_other_switches {K : Type} [Field K] [LinearOrder K] (E : Env) (sqrt : K → K) (srt : List (Nat × K) → List (Nat × K)) (solver : List K → Solver K)
    (fuel : Nat) (fs : FileSys K) (D : Data K) (o : BlockOptions K) (tol : K) (maxIter : Nat)
    (hs : ¬ (D.bools.bt ∧ D.bools.bij ∧ D.bools.bSD ∧ D.bools.btN ∧ D.bools.bV)) (d : DataComputations K) (hd : d.config = D.config) (hB : d.bools = D.bools)
    (h : fs.load (loadName D.config.nsites D.config.nalpha D.config.nbeta D.bools) = .error .os) :
    blocksOnDisk E sqrt srt solver fuel (saveDataFs fs d).1 D false o tol maxIter = ((saveDataFs fs d).1, .error .os) := by
  have := C90_other_switches fs d (by rw [hB]; exact hs)
  rw [hd, hB, h] at this
  unfold blocksOnDisk blocksStart
  simp only [Bool.false_eq_true, if_false]
  rw [this]

/-- C130 fails: where the run without an initial guess leaves a file with its results, the run whose `Data` object has one raises `TypeError` and leaves a file
that cannot be loaded. -/
theorem C130_guess_fails {K : Type} [Field K] [LinearOrder K] (E : Env) (sqrt : K → K) (srt : List (Nat × K) → List (Nat × K)) (solver : List K → Solver K)
    (fuel : Nat) (fs fs' : FileSys K) (hroot : fs.root = true) (D : Data K) (hnz : D.config.nsites ≠ 0) (neel : Bool) (o : BlockOptions K) (tol : K) (maxIter : Nat)
    (d : DataComputations K) (g : List (List K))
    (h : blocksOnDisk E sqrt srt solver fuel fs D neel o tol maxIter = (fs', .ok (some d))) :
    ∃ fs'', blocksOnDisk E sqrt srt solver fuel fs { D with diag := { D.diag with guess := some g } } neel o tol maxIter = (fs'', .error (.py .typeError)) ∧
      fs''.load (savedBlocksFile o.dynamic neel o.neighbor D.config.nsites D.config.nalpha D.config.nbeta D.bools) = .error (.py .valueError) := by
  unfold blocksOnDisk at h ⊢
  dsimp only
  cases hl : fs.load (blocksStart neel D.config.nsites D.config.nalpha D.config.nbeta D.bools) with
  | error e => rw [hl] at h; cases h
  | ok L =>
    rw [hl] at h
    dsimp only at h ⊢
    revert h
    generalize (do
      let gs ← firstColumn L.eigenstates.eigvects
      embeddingBlocks E sqrt (solver gs) fuel D.interactions D.config o L.determinants (L.ham.toCoo L.hamDim) L.eigenstates.eigvals [gs] tol maxIter :
        Py (BlockResult K ⊕ List (BlockStep K))) = run
    intro h
    rcases run with e | q | t
    · cases h
    · dsimp only
      obtain ⟨_, _, a1, a2⟩ := C89_guess_empties_file fs hroot (blocksData srt { D with diag := { D.diag with guess := some g } } L q) hnz
        (by simp [blocksData]) o.dynamic neel o.neighbor
      refine ⟨_, ?_, a2⟩
      have hpair : saveBlocks fs (blocksData srt { D with diag := { D.diag with guess := some g } } L q) o.dynamic neel o.neighbor =
          ((saveBlocks fs (blocksData srt { D with diag := { D.diag with guess := some g } } L q) o.dynamic neel o.neighbor).1, .error (.py .typeError)) :=
        Prod.ext rfl a1
      rw [hpair]
    · cases h

/-- C130, part: the three computations of the project one after the other. The results of the isolated block with at least two states and all switches on
are saved, `embedding_neel` starts from them, `embedding_blocks` with `neel_embedding` from its results. All end without an exception. -/
theorem C130_chain_partial (E : Env) (R : RunLib) (hsrt : RowSort R.srt) (fs : FileSys ℝ) (hroot : fs.root = true) (D : Data ℝ)
    (hc : RectConf D.config D.config.nbh D.config.nbv D.config.nblocs) (hf : D.config.Full) (hn : D.config.nholes + D.config.nbeta ≤ D.config.nsites)
    (hW : 2 ≤ D.config.nbh * D.config.nblocs) (hH : 2 ≤ D.config.nbv * D.config.nblocs) (hguess : D.diag.guess = none)
    (hs : D.bools.bt ∧ D.bools.bij ∧ D.bools.bSD ∧ D.bools.btN ∧ D.bools.bV) (hqR : R.lin.ExactQr) (heiR : R.lin.ExactEigh)
    (r : InitialResult) (h : performInitial E R.lin R.swap D = .ok r) (sqrt : ℝ → ℝ) (L : Nat → LinAlg ℝ) (hq : ∀ k, (L k).ExactQr)
    (hei : ∀ k, (L k).ExactEigh) (he0 : ∀ k n M i, ((L k).eigh n M).2 i ≠ 0) (hrand : ∀ k d m, ((L k).rand d m).length = m)
    (hr0 : ∀ k d, 1 ≤ d → ∀ v ∈ (L k).rand d 1, v ≠ 0) (hnb : D.diag.nbVal ≤ r.determinants.length)
    (hmin : 1 < min D.diag.nbVal (if D.diag.dimMax = 0 then r.determinants.length else D.diag.dimMax)) (fuel : Nat)
    (o : BlockOptions ℝ) (hr : o.dynamic = true → o.reverse = false ∨ D.config.nalpha = D.config.nbeta)
    (hsq : o.neighbor = false → D.config.nbh * D.config.nblocs = D.config.nbv * D.config.nblocs)
    (hE : ∀ su, blockSetup E.toSetSem D.config r.determinants o.reverse = .ok su →
      GeomLattice E su.cE (twoPos (D.config.nbh * D.config.nblocs) (D.config.nbv * D.config.nblocs)))
    (tol tol' : ℝ) (maxIter maxIter' : Nat) (hm : 1 ≤ maxIter) (hm' : 1 ≤ maxIter') :
    ∃ fs1 d1 fs2 res, neelOnDisk E sqrt (davidsonSolver L D.diag.nbVal none D.diag.stp D.diag.tol D.diag.dimMax) (fuel + 1) (saveDataFs fs (r.toData R D)).1 D
        tol maxIter = (fs1, .ok d1) ∧
      blocksOnDisk E sqrt R.srt (fun g => davidsonSolver L 1 (some g) D.diag.stp D.diag.tol D.diag.dimMax) (fuel + 1) fs1 D true o tol' maxIter' = (fs2, .ok res) ∧
      (∃ P, fs2.load (loadName D.config.nsites D.config.nalpha D.config.nbeta D.bools) = .ok P ∧ SameData P (r.toData R D)) ∧
      ∃ P g, fs2.load (savedPeripheralFile D.config.nsites D.config.nalpha D.config.nbeta D.bools) = .ok P ∧ SameData P d1 ∧
      P.eigenstates.eigvects.map (·.head?) = g.map some ∧
      ∀ d2, res = some d2 → ∃ P e v x, fs2.load (savedBlocksFile o.dynamic true o.neighbor D.config.nsites D.config.nalpha D.config.nbeta D.bools) = .ok P ∧
        SameData P d2 ∧ P.determinants = r.determinants ∧ P.eigenstates.eigvals = [e] ∧ P.eigenstates.eigvects = v.map (fun z => [z]) ∧
        FieldStep D r.determinants o g x (e, v) ∧ SmallChange sqrt tol' v x.2 := by
  obtain ⟨a1, hb, hstp, Ld, e, gs, a2, _, a3, _⟩ := C130_isolated_start_partial E R hsrt fs hroot D hc hf hn hs hqR heiR r h hmin
  obtain ⟨fs1, d1, P1, e1, v1, b1, b2, b3, b4, b5, b6⟩ := C130_neel_start_partial E _ a1 D hc hf hn hW hH hguess hstp sqrt L hq hei he0 hrand hr0 r.determinants hb
    D.diag.nbVal hnb hmin fuel Ld a2 e gs a3 tol maxIter hm
  obtain ⟨fs2, res, l, c1, c2, c3, c4, c5, c6⟩ := C130_blocks_partial E R.srt hsrt fs1 b2 D hc hf hn hguess hstp sqrt L hq hei he0 hrand fuel true o hr hsq
    r.determinants hb hE P1 b3 e1 v1 b5 tol' maxIter' hm'
  have hP : ∀ b, ∃ l, savedBlocksFile o.dynamic b o.neighbor D.config.nsites D.config.nalpha D.config.nbeta D.bools = 'E' :: l := fun b => ⟨_, rfl⟩
  have hp1 : ∃ l, savedPeripheralFile D.config.nsites D.config.nalpha D.config.nbeta D.bools = 'P' :: l := ⟨_, rfl⟩
  have hp2 : ∃ l, loadName D.config.nsites D.config.nalpha D.config.nbeta D.bools = 't' :: l := ⟨_, rfl⟩
  obtain ⟨t1, ht1⟩ := hP true
  obtain ⟨t2, ht2⟩ := hp1
  obtain ⟨t3, ht3⟩ := hp2
  have hnz : D.config.nsites ≠ 0 := by
    have h1 := hc.spec.1
    have h4 := Nat.mul_pos (Nat.mul_pos hc.hh hc.hb) (Nat.mul_pos hc.hv hc.hb)
    omega
  refine ⟨fs1, d1, fs2, res, b1, c1, ?_, P1, v1, ?_, b4, b5.state, ?_⟩
  · have hham := (performInitial_ok h).2.1
    obtain ⟨hH', e1, e2, _, _⟩ := buildHamiltonian_spec D.interactions (hc.tj E) hf hn hb D.bools [] true
    obtain rfl := Except.ok.inj (hham.symm.trans e1)
    have hdim := C02_dimension D.config r.determinants hb
    obtain ⟨_, ⟨P, p1, p2, _⟩, _⟩ := C90_chain_partial fs hroot (r.toData R D) R.times rfl hnz
      (show CsrShape D.config.nbConf _ _ _ by rw [← hdim, ← e2]; exact (toCsr_canonical hsrt r.ham (build_bounds hham)).shape) hs
    refine ⟨P, ?_, p2⟩
    rw [c5 _ (by rw [ht1, ht3]; simp), b6 _ (by show _ ≠ savedPeripheralFile _ _ _ _; rw [ht2, ht3]; simp)]
    exact p1
  · rw [c5 _ (by rw [ht1, ht2]; simp)]
    exact b3
  · intro d2 hd2
    obtain ⟨p, x, y, P, q1, q2, q3, q4, q5, q6, q7, q8, q9⟩ := c6 d2 hd2
    refine ⟨P, y.1, y.2, x, q4, q5, q6, q7, q8, ?_, q2⟩
    rw [q1] at c2
    have := (List.isChain_append.1 c2).2.1
    simpa using this

/-! ### A case that meets the hypotheses of C130 -/

/-- One hole and three up spins on 2 x 2 sites, all switches on, two states. -/
noncomputable def blocksCase : Data ℝ :=
  ⟨rectConf 1 1 2 1 0, ⟨-1, 2, 3, 4, 5, 6, 7, 8, 9, 10⟩, ⟨2, 1000, 1 / 1000, 0, none⟩, ⟨true, true, true, true, true, true⟩, false⟩

example (dyn nbr : Bool) : ∃ r : InitialResult, ∃ fs1 d1 fs2 res,
    neelOnDisk twoEnv Real.sqrt (davidsonSolver (fun _ => realLib) 2 none 1000 (1 / 1000) 0) 1 (saveDataFs emptyDir (r.toData (exactRuns 3) blocksCase)).1
      blocksCase (1 / 1000) 20 = (fs1, .ok d1) ∧
    blocksOnDisk twoEnv Real.sqrt insertionRows (fun g => davidsonSolver (fun _ => realLib) 1 (some g) 1000 (1 / 1000) 0) 1 fs1 blocksCase true
      ⟨dyn, nbr, false, 1 / 1000000⟩ (1 / 1000) 20 = (fs2, .ok res) := by
  have hb : constructBasis blocksCase.config = .ok [[0, 1, 2, 3], [1, 0, 2, 3], [2, 0, 1, 3], [3, 0, 1, 2]] := by decide +kernel
  have hf : blocksCase.config.Full := by unfold Config.Full; decide +kernel
  have hc : RectConf blocksCase.config 1 1 2 := rectConf_ok 1 1 2 1 0 (by omega) (by omega) (by omega)
  have hn : blocksCase.config.nholes + blocksCase.config.nbeta ≤ blocksCase.config.nsites := by decide +kernel
  obtain ⟨r, h1, h2, _⟩ := C80_no_failure_count twoEnv realLib realLib_qr realLib_rand (fun _ => false) blocksCase 1 1 2 hc hf hn (by intro h; cases h) _ hb
    (by decide +kernel) (by decide +kernel) (by intro rows h; cases h)
  obtain ⟨fs1, d1, fs2, res, m1, m2, _⟩ := C130_chain_partial twoEnv (exactRuns 3) insertionRows_sort emptyDir rfl blocksCase hc hf hn (by decide +kernel)
    (by decide +kernel) rfl (by decide +kernel) realLib_qr realLib_eigh r h1 Real.sqrt (fun _ => realLib) (fun _ => realLib_qr) (fun _ => realLib_eigh)
    (fun _ => realLib_ne_zero) (fun _ => realLib_rand) (fun _ => realLib_rand_ne_zero) (by rw [h2]; decide) (by rw [h2]; decide +kernel) 0
    ⟨dyn, nbr, false, 1 / 1000000⟩ (fun _ => Or.inl rfl) (fun _ => rfl) (two_squares_geom 1 0 r.determinants false) (1 / 1000) (1 / 1000) 20 20 (by omega) (by omega)
  exact ⟨r, fs1, d1, fs2, res, m1, m2⟩

/-- The run for four up spins on a 2 x 2 block, next to one block with down spins. -/
def downCase (g : Option (List (List ℚ))) : FileSys ℚ × Except IoErr (Option (DataComputations ℚ)) :=
  blocksOnDisk twoEnv sqrtUpTo4 id (fun _ => oneSolver) 1 (saveDataFs exFs exIsolated).1
    ⟨exIsolated.config, exIsolated.interactions, { exIsolated.diag with guess := g }, exIsolated.bools, false⟩ false ⟨false, true, true, 0⟩ 1 5

/-- The saved energy of the isolated block is 0, the one in the field of the neighbour -2; with an initial guess `TypeError` is raised. -/
example : (downCase none).2.toOption.map (fun r => r.map (fun d => (d.eigenstates.eigvals, d.ham.data))) = some (some ([-2], [-2])) ∧
    (downCase (some [[1]])).2.toOption.isNone = true := by
  decide +kernel

end TJ
