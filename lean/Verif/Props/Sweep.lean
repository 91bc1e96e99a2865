/-
C113: what `perform_configurations_computations` leaves in the files, from the lattice to the loaded Hamiltonian.
-/
import Verif.Model.Sweep
import Verif.Props.Csr
import Verif.Props.Files
import Verif.Props.Multiplets

namespace TJ

/-- The run of a sweep with `a` up spins: only the first one uses the initial guess. -/
def sectorData (D : Data ℝ) (a : Nat) : Data ℝ :=
  { D with config := { D.config with nbeta := D.config.nsites - D.config.nholes - a }
           diag := if a = 0 then D.diag else { D.diag with guess := none } }

/-- The name of the file of the run with `a` up spins. -/
def sectorFile (D : Data ℝ) (a : Nat) : List Char := saveName D.config.nsites a (D.config.nsites - D.config.nholes - a : Nat) D.bools

/-! ### The loop -/

/-- The files after writing one after the other. -/
theorem put_foldl {K : Type} (name : Nat → List Char) (v : Nat → PyVal K) : ∀ (as : List Nat) (fs : FileSys K),
    (as.foldl (fun fs a => fs.put (name a) (some (v a))) fs).root = fs.root ∧
    (∀ path, (∀ a ∈ as, name a ≠ path) → (as.foldl (fun fs a => fs.put (name a) (some (v a))) fs).file path = fs.file path) ∧
    ∀ as1 a as2, as = as1 ++ a :: as2 → (∀ b ∈ as2, name b ≠ name a) →
      (as.foldl (fun fs a => fs.put (name a) (some (v a))) fs).file (name a) = some (some (v a)) := by
  intro as
  induction as with
  | nil =>
    intro fs
    exact ⟨rfl, fun _ _ => rfl, fun as1 a as2 h _ => by cases as1 <;> cases h⟩
  | cons b as ih =>
    intro fs
    obtain ⟨i1, i2, i3⟩ := ih (fs.put (name b) (some (v b)))
    refine ⟨i1, ?_, ?_⟩
    · intro path hp
      rw [List.foldl_cons, i2 path (fun a ha => hp a (List.mem_cons_of_mem _ ha))]
      unfold FileSys.put
      dsimp only
      rw [if_neg (Ne.symm (hp b List.mem_cons_self))]
    · intro as1 a as2 h hn
      cases as1 with
      | nil =>
        obtain ⟨rfl, rfl⟩ := List.cons.inj h
        rw [List.foldl_cons, i2 _ hn]
        unfold FileSys.put
        simp
      | cons _ as1 =>
        exact i3 as1 a as2 (List.cons.inj h).2 hn

/-- The value saved by a run. -/
noncomputable def runValue (R : RunLib) (D : Data ℝ) (r : InitialResult) : PyVal ℝ :=
  match saveData (r.toData R D) with
  | .ok x => x.2
  | .error _ => .none

theorem runValue_eq (R : RunLib) (D : Data ℝ) (r : InitialResult) :
    saveData (r.toData R D) = .ok (saveName D.config.nsites D.config.nalpha D.config.nbeta D.bools, runValue R D r) := by
  unfold runValue
  rfl

theorem runSave {fs : FileSys ℝ} (hr : fs.root = true) (R : RunLib) (D : Data ℝ) (r : InitialResult) :
    saveDataFs fs (r.toData R D) = (fs.put (saveName D.config.nsites D.config.nalpha D.config.nbeta D.bools) (some (runValue R D r)),
      { r.toData R D with diag := { D.diag with guess := none } }, .ok ()) := by
  unfold saveDataFs
  rw [runValue_eq]
  dsimp only [Except.map]
  rw [writeJson_ok hr rfl]
  rfl

theorem init_sector (c : Config) (hn : c.nsites ≠ 0) (hl : c.ltype = .periodic) (b : Nat) :
    Config.init c.bond c.nholes b (.pair c.restr.1 c.restr.2) .periodic c.nbh c.nbv c.nblocs = .ok { c with nbeta := b } := by
  unfold Config.init
  rw [if_neg (show ¬ c.bond.rows = 0 from hn), ← hl]

theorem sector_nalpha {c : Config} {a : Nat} (ha : a + c.nholes ≤ c.nsites) :
    ({ c with nbeta := c.nsites - c.nholes - a } : Config).nalpha = a := by
  show ((c.nsites : Int) - c.nholes - (c.nsites - c.nholes - a : Nat)) = a
  omega

/-- The loop without initial guess: each run writes its file. -/
theorem sweepLoop_ok (E : Env) (R : Nat → RunLib) (D : Data ℝ) (hl : D.config.ltype = .periodic) (hn : D.config.nsites ≠ 0) (r : Nat → InitialResult) :
    ∀ (as : List Nat) (fs : FileSys ℝ) (b : Nat), fs.root = true → (∀ a ∈ as, a + D.config.nholes ≤ D.config.nsites ∧ a ≠ 0) →
      (∀ a ∈ as, performInitial E (R a).lin (R a).swap (sectorData D a) = .ok (r a)) →
      sweepLoop E R D.config.nsites as fs { D with config := { D.config with nbeta := b }, diag := { D.diag with guess := none } } =
        (as.foldl (fun fs a => fs.put (sectorFile D a) (some (runValue (R a) (sectorData D a) (r a)))) fs, .ok ()) := by
  intro as
  induction as with
  | nil => intro fs b _ _ _; rfl
  | cons a as ih =>
    intro fs b hr ha hp
    obtain ⟨ha1, ha0⟩ := ha a List.mem_cons_self
    have e : sectorData D a = { D with config := { D.config with nbeta := D.config.nsites - D.config.nholes - a }, diag := { D.diag with guess := none } } := by
      unfold sectorData
      rw [if_neg ha0]
    have hp1 := hp a List.mem_cons_self
    rw [e] at hp1
    unfold sweepLoop
    have hi := init_sector D.config hn hl (D.config.nsites - D.config.nholes - a)
    dsimp only
    rw [hi]
    dsimp only
    rw [hp1]
    dsimp only
    rw [runSave hr]
    dsimp only
    have := ih (fs.put (sectorFile D a) (some (runValue (R a) (sectorData D a) (r a)))) (D.config.nsites - D.config.nholes - a) hr
      (fun a' h' => ha a' (List.mem_cons_of_mem _ h')) (fun a' h' => hp a' (List.mem_cons_of_mem _ h'))
    rw [List.foldl_cons, ← this, e]
    unfold sectorFile
    rw [sector_nalpha ha1]
    rfl

/-- The whole sweep. -/
theorem sweep_files (E : Env) (R : Nat → RunLib) (fs : FileSys ℝ) (hr : fs.root = true) (D : Data ℝ) (hl : D.config.ltype = .periodic)
    (hn : D.config.nsites ≠ 0) (hh : D.config.nholes ≤ D.config.nsites) (r : Nat → InitialResult)
    (hp : ∀ a, a + D.config.nholes ≤ D.config.nsites → performInitial E (R a).lin (R a).swap (sectorData D a) = .ok (r a)) :
    performConfigurations E R fs D = ((List.range (D.config.nsites - D.config.nholes + 1)).foldl
      (fun fs a => fs.put (sectorFile D a) (some (runValue (R a) (sectorData D a) (r a)))) fs, .ok ()) := by
  unfold performConfigurations
  rw [show D.config.nsites + 1 - D.config.nholes = D.config.nsites - D.config.nholes + 1 by omega, List.range_succ_eq_map]
  have hp0 := hp 0 (by omega)
  have e : sectorData D 0 = { D with config := { D.config with nbeta := D.config.nsites - D.config.nholes - 0 } } := by
    unfold sectorData
    rw [if_pos rfl]
  unfold sweepLoop
  rw [init_sector D.config hn hl]
  dsimp only
  rw [← e, hp0]
  dsimp only
  rw [runSave hr]
  dsimp only
  have := sweepLoop_ok E R D hl hn r ((List.range (D.config.nsites - D.config.nholes)).map Nat.succ)
    (fs.put (sectorFile D 0) (some (runValue (R 0) (sectorData D 0) (r 0)))) (D.config.nsites - D.config.nholes - 0) hr
    (fun a ha => by
      obtain ⟨k, hk, rfl⟩ := List.mem_map.1 ha
      have := List.mem_range.1 hk
      exact ⟨by omega, by omega⟩)
    (fun a ha => by
      obtain ⟨k, hk, rfl⟩ := List.mem_map.1 ha
      have := List.mem_range.1 hk
      exact hp _ (by omega))
  rw [List.foldl_cons, ← this]
  have ha : (sectorData D 0).config.nalpha = (0 : Nat) := sector_nalpha (c := D.config) (by omega)
  have hd : ({ (sectorData D 0).diag with guess := none } : Diagonalization ℝ) = { D.diag with guess := none } := by rw [e]
  unfold sectorFile
  rw [ha, hd]
  rfl

/-! ### C113 -/

/-- What a file should contain after the run `r` of a sweep with `b` down spins on the lattice of `D`: the parameters, the basis, arrays that
are a canonical form of the textbook Hamiltonian in this basis, and the energies, states (by rows) and spin numbers that were computed. -/
structure StoredRun (D : Data ℝ) (width b : Nat) (r : InitialResult) (t : Times ℝ) (L : Loaded ℝ) : Prop where
  rows : L.config.bond.rows = D.config.bond.rows
  cols : L.config.bond.cols = D.config.bond.cols
  bond : ∀ i < D.config.bond.rows, ∀ j < D.config.bond.cols, L.config.bond.e i j = D.config.bond.e i j
  holes : L.config.nholes = D.config.nholes
  down : L.config.nbeta = b
  sizes : L.config.nbh = D.config.nbh ∧ L.config.nbv = D.config.nbv ∧ L.config.nblocs = D.config.nblocs
  periodic : L.config.ltype = .periodic
  interactions : L.interactions = D.interactions
  bools : L.bools = D.bools
  basis : constructBasis { D.config with nbeta := b } = .ok L.determinants
  dim : L.hamDim = L.determinants.length ∧ r.ham.dim = L.determinants.length
  restored : csrMatrix L.hamDim L.ham = .ok L.ham
  canonical : CanonicalCsr L.hamDim L.ham.data L.ham.indices L.ham.indptr
  hamiltonian : ∀ i j (hi : i < L.determinants.length) (hj : j < L.determinants.length),
    csrSum L.ham.data L.ham.indices L.ham.indptr i j = hamEl D.interactions (fun s => gridPos width s) D.bools
      (conf { D.config with nbeta := b } L.determinants[i]) (conf { D.config with nbeta := b } L.determinants[j])
  energies : L.eigenstates.eigvals = r.eig.eigvals
  spins : L.eigenstates.spins = r.spins.map SpinNumber.toOption
  states : L.eigenstates.eigvects = List.ofFn (fun i => r.eig.eigvects.map (fun v => v i))
  times : L.times = some t

theorem stored_run (E : Env) (R : RunLib) (hs : RowSort R.srt) (D : Data ℝ) (nbh nbv nb : Nat) (hc : RectConf D.config nbh nbv nb) (hf : D.config.Full)
    (a : Nat) (ha : a + D.config.nholes ≤ D.config.nsites) (hn : D.config.nsites ≠ 0) (r : InitialResult)
    (h : performInitial E R.lin R.swap (sectorData D a) = .ok r) :
    ∃ L, loadData (runValue R (sectorData D a) r) = .ok L ∧ StoredRun D (nbh * nb) (D.config.nsites - D.config.nholes - a) r R.times L := by
  obtain ⟨hb, hH, _, _⟩ := performInitial_ok h
  have hc' : RectConf (sectorData D a).config nbh nbv nb := hc.with_nbeta _
  have hf' : (sectorData D a).config.Full := hf
  have hn' : (sectorData D a).config.nholes + (sectorData D a).config.nbeta ≤ (sectorData D a).config.nsites := by
    show D.config.nholes + (D.config.nsites - D.config.nholes - a) ≤ D.config.nsites
    omega
  obtain ⟨H, e1, e2, e3⟩ := C112_arrays R.srt hs E (sectorData D a).config nbh nbv nb hc' hf' hn' (sectorData D a).interactions
    (sectorData D a).bools [] true r.determinants hb
  obtain rfl := Except.ok.inj (hH.symm.trans e1)
  obtain ⟨k1, k2⟩ := C112_canonical R.srt hs E _ _ _ _ _ _ r.ham hH
  have hdim : (sectorData D a).config.nbConf = r.determinants.length := (C02_dimension _ _ hb).symm
  obtain ⟨name, v, L, h1, h2, a1, a2, a3, a4, a5, a6, a7, a8, a9, a10, a11, a12, a13, a14, a15, a16, a17, a18, a19⟩ :=
    C54_roundtrip_partial (r.toData R (sectorData D a)) R.times rfl hn
      (show CsrShape (sectorData D a).config.nbConf _ _ _ by rw [hdim, ← e2]; exact k1.shape)
  rw [runValue_eq] at h1
  obtain ⟨rfl, rfl⟩ := Prod.mk.inj (Except.ok.inj h1)
  have d1 : L.determinants = r.determinants := a15
  have d2 : L.ham = r.ham.toCsr R.srt := a16
  have d3 : L.hamDim = r.ham.dim := by rw [a17, e2]; exact hdim
  have d4 : L.eigenstates = ⟨r.eig.eigvals, r.spins.map SpinNumber.toOption, List.ofFn (fun i => r.eig.eigvects.map (fun v => v i))⟩ := a18
  refine ⟨L, h2, a1, a2, a3, a4, a5, ⟨a6, a7, a8⟩, a9, a11, a13, ?_, ?_, ?_, ?_, ?_, ?_, ?_, ?_, a19⟩
  · rw [d1]; exact hb
  · rw [d1, d3, e2]
    exact ⟨rfl, rfl⟩
  · rw [d2, d3]; exact k2
  · rw [d2, d3]; exact k1
  · rw [d2, d1]; exact e3
  · rw [d4]
  · rw [d4]
  · rw [d4]

theorem sector_dim {c : Config} {a : Nat} (ha : a + c.nholes ≤ c.nsites) {dets : List (List Nat)}
    (hb : constructBasis { c with nbeta := c.nsites - c.nholes - a } = .ok dets) :
    dets.length = c.nsites.choose c.nholes * (c.nsites - c.nholes).choose (c.nsites - c.nholes - a) ∧ c.nsites.choose c.nholes ≤ dets.length := by
  have h1 : dets.length = if c.nholes + (c.nsites - c.nholes - a) ≤ c.nsites then
      c.nsites.choose c.nholes * (c.nsites - c.nholes).choose (c.nsites - c.nholes - a) else 0 :=
    (C02_dimension _ _ hb).trans (C02_dimension_value _)
  rw [if_pos (by omega)] at h1
  refine ⟨h1, ?_⟩
  rw [h1]
  exact Nat.le_mul_of_pos_right _ (Nat.choose_pos (show c.nsites - c.nholes - a ≤ c.nsites - c.nholes by omega))

/-- Each run of a sweep succeeds. -/
theorem sweep_runs (E : Env) (R : Nat → RunLib) (hq : ∀ a, (R a).lin.ExactQr) (hrand : ∀ a d m, ((R a).lin.rand d m).length = m)
    (D : Data ℝ) (nbh nbv nb : Nat) (hc : RectConf D.config nbh nbv nb) (hf : D.config.Full) (hh : D.config.nholes ≤ D.config.nsites)
    (ho : D.spinMult = true → HolesInOrder E.toSetSem D.config) (hst : 1 ≤ D.diag.stp)
    (hv : D.diag.count (D.config.nsites.choose D.config.nholes) ≤ D.config.nsites.choose D.config.nholes)
    (hg : ∀ rows, D.diag.guess = some rows → rows.length = D.config.nsites.choose D.config.nholes ∧
      (rows.headD []).length = D.diag.count (D.config.nsites.choose D.config.nholes)) (a : Nat) (ha : a + D.config.nholes ≤ D.config.nsites) :
    ∃ r, performInitial E (R a).lin (R a).swap (sectorData D a) = .ok r ∧
      r.eig.eigvals.length = D.diag.count (D.config.nsites.choose D.config.nholes * (D.config.nsites - D.config.nholes).choose a) := by
  obtain ⟨dets, hb⟩ : ∃ dets, constructBasis (sectorData D a).config = .ok dets := ⟨_, constructBasis_eq _⟩
  obtain ⟨d1, d2⟩ := sector_dim ha hb
  have hcount : ∀ d, (sectorData D a).diag.count d = D.diag.count d := by
    intro d
    unfold sectorData
    dsimp only
    split_ifs <;> rfl
  have hle : D.diag.count dets.length ≤ dets.length := by
    unfold Diagonalization.count at hv ⊢
    by_cases h0 : D.diag.dimMax = 0
    · rw [if_pos h0]; exact min_le_right _ _
    · rw [if_neg h0] at hv ⊢
      exact hv.trans d2
  have hstp : (sectorData D a).diag.stp = D.diag.stp := by
    unfold sectorData
    dsimp only
    split_ifs <;> rfl
  obtain ⟨r, h1, _, _, h4, _⟩ := C80_no_failure_count E (R a).lin (hq a) (hrand a) (R a).swap (sectorData D a) nbh nbv nb (hc.with_nbeta _) hf
    (by show D.config.nholes + (D.config.nsites - D.config.nholes - a) ≤ D.config.nsites; omega) ho dets hb (hstp ▸ hst)
    (by rw [hcount]; exact hle)
    (by
      intro rows hrows
      unfold sectorData at hrows
      dsimp only at hrows
      by_cases h0 : a = 0
      · subst h0
        rw [if_pos rfl] at hrows
        obtain ⟨g1, g2⟩ := hg rows hrows
        have : dets.length = D.config.nsites.choose D.config.nholes := by rw [d1]; simp
        rw [hcount, this]
        exact ⟨g1, g2⟩
      · rw [if_neg h0] at hrows
        cases hrows)
  refine ⟨r, h1, ?_⟩
  rw [h4, hcount, d1, ← Nat.choose_symm (show a ≤ D.config.nsites - D.config.nholes by omega)]

theorem rect_sites {c : Config} {nbh nbv nb : Nat} (hc : RectConf c nbh nbv nb) : c.nsites ≠ 0 := by
  have h1 := hc.spec.1
  have h2 := Nat.mul_pos (Nat.mul_pos hc.hh hc.hb) (Nat.mul_pos hc.hv hc.hb)
  omega

/-- The results of all runs of a sweep. -/
theorem sweep_results (E : Env) (R : Nat → RunLib) (hq : ∀ a, (R a).lin.ExactQr) (hrand : ∀ a d m, ((R a).lin.rand d m).length = m)
    (D : Data ℝ) (nbh nbv nb : Nat) (hc : RectConf D.config nbh nbv nb) (hf : D.config.Full) (hh : D.config.nholes ≤ D.config.nsites)
    (ho : D.spinMult = true → HolesInOrder E.toSetSem D.config) (hst : 1 ≤ D.diag.stp)
    (hv : D.diag.count (D.config.nsites.choose D.config.nholes) ≤ D.config.nsites.choose D.config.nholes)
    (hg : ∀ rows, D.diag.guess = some rows → rows.length = D.config.nsites.choose D.config.nholes ∧
      (rows.headD []).length = D.diag.count (D.config.nsites.choose D.config.nholes)) :
    ∃ r : Nat → InitialResult, ∀ a, a + D.config.nholes ≤ D.config.nsites →
      performInitial E (R a).lin (R a).swap (sectorData D a) = .ok (r a) ∧
      (r a).eig.eigvals.length = D.diag.count (D.config.nsites.choose D.config.nholes * (D.config.nsites - D.config.nholes).choose a) := by
  have hrun := sweep_runs E R hq hrand D nbh nbv nb hc hf hh ho hst hv hg
  have hdef : ∀ a, ∃ r : InitialResult, a + D.config.nholes ≤ D.config.nsites →
      performInitial E (R a).lin (R a).swap (sectorData D a) = .ok r ∧
      r.eig.eigvals.length = D.diag.count (D.config.nsites.choose D.config.nholes * (D.config.nsites - D.config.nholes).choose a) := by
    intro a
    by_cases ha : a + D.config.nholes ≤ D.config.nsites
    · obtain ⟨r, h⟩ := hrun a ha
      exact ⟨r, fun _ => h⟩
    · obtain ⟨r0, _⟩ := hrun 0 (by omega)
      exact ⟨r0, fun h => absurd h ha⟩
  choose r hr1 using hdef
  exact ⟨r, hr1⟩

/-- C113, part: a sweep over the sectors of an unrestricted rectangular lattice ends without exception, and, if the number of
electrons satisfies `DistinctNames` (as the numbers up to 10 do), afterwards the file of every sector loads back to what was computed for this sector: its basis, the textbook Hamiltonian in this
basis in canonical arrays, the requested number of energies, the states and the spin numbers. No other file has changed. The hypotheses on
`nb_val` are that the smallest sector has enough determinants, and that an initial guess has the shape of the first sector. -/
theorem C113_sweep_partial (E : Env) (R : Nat → RunLib) (hq : ∀ a, (R a).lin.ExactQr) (hrand : ∀ a d m, ((R a).lin.rand d m).length = m)
    (hs : ∀ a, RowSort (R a).srt) (fs : FileSys ℝ) (hr : fs.root = true) (D : Data ℝ) (nbh nbv nb : Nat) (hc : RectConf D.config nbh nbv nb)
    (hf : D.config.Full) (hh : D.config.nholes ≤ D.config.nsites) (ho : D.spinMult = true → HolesInOrder E.toSetSem D.config) (hst : 1 ≤ D.diag.stp)
    (hv : D.diag.count (D.config.nsites.choose D.config.nholes) ≤ D.config.nsites.choose D.config.nholes)
    (hg : ∀ rows, D.diag.guess = some rows → rows.length = D.config.nsites.choose D.config.nholes ∧
      (rows.headD []).length = D.diag.count (D.config.nsites.choose D.config.nholes)) (h10 : DistinctNames (D.config.nsites - D.config.nholes)) :
    (performConfigurations E R fs D).2 = .ok () ∧
    (∀ a b, a + b + D.config.nholes = D.config.nsites → ∃ r L,
      performInitial E (R a).lin (R a).swap (sectorData D a) = .ok r ∧
      r.eig.eigvals.length = D.diag.count (D.config.nsites.choose D.config.nholes * (D.config.nsites - D.config.nholes).choose a) ∧
      (performConfigurations E R fs D).1.load (saveName D.config.nsites a b D.bools) = .ok L ∧
      StoredRun D (nbh * nb) b r (R a).times L) ∧
    ∀ path, (∀ a b, a + b + D.config.nholes = D.config.nsites → path ≠ saveName D.config.nsites a b D.bools) →
      (performConfigurations E R fs D).1.load path = fs.load path := by
  have hn := rect_sites hc
  obtain ⟨r, hr1⟩ := sweep_results E R hq hrand D nbh nbv nb hc hf hh ho hst hv hg
  have hsw := sweep_files E R fs hr D hc.ltype hn hh r (fun a ha => (hr1 a ha).1)
  obtain ⟨_, p2, p3⟩ := put_foldl (sectorFile D) (fun a => runValue (R a) (sectorData D a) (r a))
    (List.range (D.config.nsites - D.config.nholes + 1)) fs
  rw [hsw]
  refine ⟨rfl, ?_, ?_⟩
  · intro a b hab
    have hb : b = D.config.nsites - D.config.nholes - a := by omega
    subst hb
    obtain ⟨L, l1, l2⟩ := stored_run E (R a) (hs a) D nbh nbv nb hc hf a (by omega) hn (r a) (hr1 a (by omega)).1
    refine ⟨r a, L, (hr1 a (by omega)).1, (hr1 a (by omega)).2, ?_, l2⟩
    obtain ⟨as1, as2, hsplit⟩ := List.append_of_mem (List.mem_range.2 (show a < D.config.nsites - D.config.nholes + 1 by omega))
    have hlast := p3 as1 a as2 hsplit (by
      intro b hb e
      have hnd : (List.range (D.config.nsites - D.config.nholes + 1)).Nodup := List.nodup_range
      have hbm : b ∈ List.range (D.config.nsites - D.config.nholes + 1) := by rw [hsplit]; simp [hb]
      have hb' := List.mem_range.1 hbm
      have heq := (C55_sweep_partial D.config.nsites b (D.config.nsites - D.config.nholes - b) a (D.config.nsites - D.config.nholes - a)
        (by rwa [show b + (D.config.nsites - D.config.nholes - b) = D.config.nsites - D.config.nholes by omega]) (by omega) D.bools e).1
      rw [hsplit, List.nodup_append] at hnd
      subst heq
      exact (List.nodup_cons.1 hnd.2.1).1 hb)
    show FileSys.load _ (sectorFile D a) = _
    unfold FileSys.load
    rw [hlast]
    dsimp only
    rw [l1]
    rfl
  · intro path hp
    unfold FileSys.load
    dsimp only
    rw [p2 path (fun a ha => ?_)]
    have := List.mem_range.1 ha
    exact Ne.symm (hp a (D.config.nsites - D.config.nholes - a) (by omega))

/-- C113 fails for all other numbers of electrons: the sweep ends without exception, but the file of some sector loads back with a
number of down spins that is not that of the sector. -/
theorem C113_always_overwritten (E : Env) (R : Nat → RunLib) (hq : ∀ a, (R a).lin.ExactQr)
    (hrand : ∀ a d m, ((R a).lin.rand d m).length = m)
    (hs : ∀ a, RowSort (R a).srt) (fs : FileSys ℝ) (hr : fs.root = true) (D : Data ℝ) (nbh nbv nb : Nat) (hc : RectConf D.config nbh nbv nb)
    (hf : D.config.Full) (hh : D.config.nholes ≤ D.config.nsites) (ho : D.spinMult = true → HolesInOrder E.toSetSem D.config) (hst : 1 ≤ D.diag.stp)
    (hv : D.diag.count (D.config.nsites.choose D.config.nholes) ≤ D.config.nsites.choose D.config.nholes)
    (hg : ∀ rows, D.diag.guess = some rows → rows.length = D.config.nsites.choose D.config.nholes ∧
      (rows.headD []).length = D.diag.count (D.config.nsites.choose D.config.nholes))
    (hd : ¬ DistinctNames (D.config.nsites - D.config.nholes)) :
    (performConfigurations E R fs D).2 = .ok () ∧
    ∃ a b L, a + b + D.config.nholes = D.config.nsites ∧
      (performConfigurations E R fs D).1.load (saveName D.config.nsites a b D.bools) = .ok L ∧ L.config.nbeta ≠ b := by
  have hn := rect_sites hc
  obtain ⟨r, hr1⟩ := sweep_results E R hq hrand D nbh nbv nb hc hf hh ho hst hv hg
  have hsw := sweep_files E R fs hr D hc.ltype hn hh r (fun a ha => (hr1 a ha).1)
  obtain ⟨_, _, p3⟩ := put_foldl (sectorFile D) (fun a => runValue (R a) (sectorData D a) (r a))
    (List.range (D.config.nsites - D.config.nholes + 1)) fs
  refine ⟨by rw [hsw], ?_⟩
  -- the file of a sector contains the results of some sector
  have hload : ∀ a b, a + b + D.config.nholes = D.config.nsites → ∃ L,
      (performConfigurations E R fs D).1.load (saveName D.config.nsites a b D.bools) = .ok L := by
    intro a b hab
    have hb : b = D.config.nsites - D.config.nholes - a := by omega
    subst hb
    classical
    set m := Nat.findGreatest (fun x => sectorFile D x = sectorFile D a) (D.config.nsites - D.config.nholes) with hm
    have hma : sectorFile D m = sectorFile D a :=
      Nat.findGreatest_spec (P := fun x => sectorFile D x = sectorFile D a) (show a ≤ D.config.nsites - D.config.nholes by omega) rfl
    have hmle : m ≤ D.config.nsites - D.config.nholes := Nat.findGreatest_le _
    obtain ⟨L, l1, _⟩ := stored_run E (R m) (hs m) D nbh nbv nb hc hf m (by omega) hn (r m) (hr1 m (by omega)).1
    refine ⟨L, ?_⟩
    obtain ⟨as1, as2, hsplit⟩ := List.append_of_mem (List.mem_range.2 (show m < D.config.nsites - D.config.nholes + 1 by omega))
    have hlast := p3 as1 m as2 hsplit (by
      intro x hx e
      have hso : (List.range (D.config.nsites - D.config.nholes + 1)).Pairwise (· < ·) := List.pairwise_lt_range
      have hxm : x ∈ List.range (D.config.nsites - D.config.nholes + 1) := by rw [hsplit]; simp [hx]
      have hx' := List.mem_range.1 hxm
      rw [hsplit, List.pairwise_append] at hso
      have hlt := (List.pairwise_cons.1 hso.2.1).1 x hx
      exact Nat.findGreatest_is_greatest hlt (by omega) (e.trans hma))
    rw [hsw]
    show FileSys.load _ (sectorFile D a) = _
    rw [← hma]
    unfold FileSys.load
    rw [hlast]
    dsimp only
    rw [l1]
    rfl
  by_contra hno
  push Not at hno
  refine hd ((C55_sweep_exact D.config.nsites _ D.bools).1 fun a b a' b' e1 e2 hname => ?_)
  obtain ⟨L, l1⟩ := hload a b (by omega)
  have l2 := hno a b L (by omega) l1
  have l3 := hno a' b' L (by omega) (hname ▸ l1)
  omega

/-- C113 fails from 11 electrons on: with `11 y + z` electrons, `y` from 1 to 9 and `z` up to 9, the sweep ends without exception, but the file of
the sector with `y` up spins and `10 y + z` down spins contains the results of the sector with `z` down spins. -/
theorem C113_overwritten (E : Env) (R : Nat → RunLib) (hq : ∀ a, (R a).lin.ExactQr) (hrand : ∀ a d m, ((R a).lin.rand d m).length = m)
    (hs : ∀ a, RowSort (R a).srt) (fs : FileSys ℝ) (hr : fs.root = true) (D : Data ℝ) (nbh nbv nb : Nat) (hc : RectConf D.config nbh nbv nb)
    (hf : D.config.Full) (ho : D.spinMult = true → HolesInOrder E.toSetSem D.config) (hst : 1 ≤ D.diag.stp)
    (hv : D.diag.count (D.config.nsites.choose D.config.nholes) ≤ D.config.nsites.choose D.config.nholes)
    (hg : ∀ rows, D.diag.guess = some rows → rows.length = D.config.nsites.choose D.config.nholes ∧
      (rows.headD []).length = D.diag.count (D.config.nsites.choose D.config.nholes))
    (y z : Nat) (hy : 1 ≤ y) (hy' : y ≤ 9) (hz : z ≤ 9) (hN : 11 * y + z + D.config.nholes = D.config.nsites) :
    (performConfigurations E R fs D).2 = .ok () ∧
    (∃ r L, (performConfigurations E R fs D).1.load (saveName D.config.nsites y (10 * y + z : Nat) D.bools) = .ok L ∧
      StoredRun D (nbh * nb) z r (R (11 * y)).times L ∧ L.config.nbeta ≠ 10 * y + z) := by
  have hn := rect_sites hc
  obtain ⟨r, hr1⟩ := sweep_results E R hq hrand D nbh nbv nb hc hf (by omega) ho hst hv hg
  have hsw := sweep_files E R fs hr D hc.ltype hn (by omega) r (fun a ha => (hr1 a ha).1)
  obtain ⟨_, _, p3⟩ := put_foldl (sectorFile D) (fun a => runValue (R a) (sectorData D a) (r a))
    (List.range (D.config.nsites - D.config.nholes + 1)) fs
  rw [hsw]
  refine ⟨rfl, ?_⟩
  obtain ⟨L, l1, l2⟩ := stored_run E (R (11 * y)) (hs _) D nbh nbv nb hc hf (11 * y) (by omega) hn (r (11 * y)) (hr1 (11 * y) (by omega)).1
  have hz' : D.config.nsites - D.config.nholes - 11 * y = z := by omega
  rw [hz'] at l2
  refine ⟨r (11 * y), L, ?_, l2, by rw [l2.down]; omega⟩
  obtain ⟨as1, as2, hsplit⟩ := List.append_of_mem (List.mem_range.2 (show 11 * y < D.config.nsites - D.config.nholes + 1 by omega))
  have hlast := p3 as1 (11 * y) as2 hsplit (by
    intro b hb e
    have hso : (List.range (D.config.nsites - D.config.nholes + 1)).Pairwise (· < ·) := List.pairwise_lt_range
    have hbm : b ∈ List.range (D.config.nsites - D.config.nholes + 1) := by rw [hsplit]; simp [hb]
    have hb' := List.mem_range.1 hbm
    rw [hsplit, List.pairwise_append] at hso
    have hlt := (List.pairwise_cons.1 hso.2.1).1 b hb
    obtain ⟨e1, _⟩ := saveName_split e
    have e1 := List.append_cancel_left e1
    have := List.append_inj_left' e1 (by rw [toDigits_length_one (by omega), toDigits_length_one (by omega)])
    have := toDigits_inj this
    omega)
  rw [← (C55_collision D.config.nsites y z hy hy' hz D.bools).1]
  have hfile : sectorFile D (11 * y) = saveName D.config.nsites (11 * y : Nat) z D.bools := by
    unfold sectorFile
    rw [hz']
  rw [← hfile]
  unfold FileSys.load
  rw [hlast]
  dsimp only
  rw [l1]
  rfl

/-- More eigenpairs than determinants: the diagonalisation raises `IndexError`. -/
theorem davidson_too_many {d : Nat} (L : LinAlg ℝ) (hq : L.ExactQr) (A : Matrix (Fin d) (Fin d) ℝ) (nbVal : Nat) (guess : Option (List (Fin d → ℝ)))
    (stp : Nat) (hs : 1 ≤ stp) (tol : ℝ) (dimMax : Nat) (h1 : 1 < min nbVal (if dimMax = 0 then d else dimMax))
    (h : d < min nbVal (if dimMax = 0 then d else dimMax)) : modifiedDavidson L A nbVal guess stp tol dimMax = .error .indexError := by
  obtain ⟨stp, rfl⟩ : ∃ k, stp = k + 1 := ⟨stp - 1, by omega⟩
  unfold modifiedDavidson
  dsimp only
  rw [if_pos h1]
  unfold davidsonLoop
  rw [ritz_fail L A _ _ (by rw [(hq d _).1]; exact lt_of_le_of_lt (min_le_left _ _) h)]
  rfl

/-- C113 fails when `dim_max` is given and the smallest sectors have fewer determinants than the eigenpairs to compute: already the first run
raises `IndexError`, and nothing is saved for any sector. (Without holes the first sector has one determinant, so any `nb_val` and `dim_max`
larger than 1 are enough.) -/
theorem C113_too_many (E : Env) (R : Nat → RunLib) (hq : (R 0).lin.ExactQr) (fs : FileSys ℝ) (D : Data ℝ) (nbh nbv nb : Nat)
    (hc : RectConf D.config nbh nbv nb) (hf : D.config.Full) (hh : D.config.nholes ≤ D.config.nsites) (hst : 1 ≤ D.diag.stp)
    (hv : D.config.nsites.choose D.config.nholes < D.diag.count (D.config.nsites.choose D.config.nholes)) (hg : D.diag.guess = none) :
    performConfigurations E R fs D = (fs, .error (.py .indexError)) := by
  have hn := rect_sites hc
  obtain ⟨dets, hb⟩ : ∃ dets, constructBasis (sectorData D 0).config = .ok dets := ⟨_, constructBasis_eq _⟩
  obtain ⟨d1, d2⟩ := sector_dim (c := D.config) (a := 0) (by omega) hb
  have hd : dets.length = D.config.nsites.choose D.config.nholes := by rw [d1]; simp
  have hpos : 0 < D.config.nsites.choose D.config.nholes := Nat.choose_pos hh
  obtain ⟨H, e1, e2, _, _⟩ := buildHamiltonian_spec D.interactions ((hc.with_nbeta (D.config.nsites - D.config.nholes - 0)).tj E) hf
    (show D.config.nholes + (D.config.nsites - D.config.nholes - 0) ≤ D.config.nsites by omega) hb D.bools [] true
  have hdav : modifiedDavidson (R 0).lin H.toMatrix D.diag.nbVal none D.diag.stp D.diag.tol D.diag.dimMax = .error .indexError := by
    unfold Diagonalization.count at hv
    refine davidson_too_many _ hq _ _ _ _ hst _ _ ?_ ?_
    · rw [e2, hd]; omega
    · rw [e2, hd]; exact hv
  have hrun : performInitial E (R 0).lin (R 0).swap (sectorData D 0) = .error .indexError := by
    unfold performInitial
    refine bind_ok hb (bind_ok e1 ?_)
    refine bind_ok (a := none) ?_ ?_
    · unfold Diagonalization.guessArg sectorData
      rw [if_pos rfl, hg]
    · show (modifiedDavidson _ _ _ _ _ _ _ >>= fun r => _) = _
      have : (sectorData D 0).diag = D.diag := by unfold sectorData; rw [if_pos rfl]
      rw [this, hdav]
      rfl
  have e : sectorData D 0 = { D with config := { D.config with nbeta := D.config.nsites - D.config.nholes - 0 } } := by
    unfold sectorData
    rw [if_pos rfl]
  unfold performConfigurations
  rw [show D.config.nsites + 1 - D.config.nholes = D.config.nsites - D.config.nholes + 1 by omega, List.range_succ_eq_map]
  unfold sweepLoop
  rw [init_sector D.config hn hc.ltype]
  dsimp only
  rw [← e, hrun]

/-- Exact library calls for every run. -/
noncomputable def exactRuns : Nat → RunLib := fun a => ⟨realLib, fun _ => false, insertionRows, ⟨a, 0, 1⟩⟩

/-- A directory with no result. -/
def emptyDir : FileSys ℝ := ⟨true, [], fun _ => none⟩

/-- The sweep of main.py on 2 x 2 sites with one hole. -/
noncomputable def sweepData : Data ℝ :=
  ⟨rectConf 2 2 1 1 0, ⟨-1, 2, 3, 4, 5, 6, 7, 8, 9, 10⟩, ⟨12, 1000, 0, 0, none⟩, ⟨true, true, true, false, false, false⟩, true⟩

/-- C113 for the sector with two up spins and one down spin: 12 energies of 12 determinants are in its file. -/
example : (performConfigurations exEnv exactRuns emptyDir sweepData).2 = .ok () ∧
    ∃ L, (performConfigurations exEnv exactRuns emptyDir sweepData).1.load (saveName 4 2 1 sweepData.bools) = .ok L ∧
      L.config.nbeta = 1 ∧ L.determinants.length = 12 ∧ L.eigenstates.eigvals.length = 12 := by
  obtain ⟨h1, h2, _⟩ := C113_sweep_partial exEnv exactRuns (fun _ => realLib_qr) (fun _ => realLib_rand) (fun _ => insertionRows_sort) emptyDir rfl
    sweepData 2 2 1 (rectConf_ok 2 2 1 1 0 (by omega) (by omega) (by omega)) (by unfold Config.Full; decide +kernel) (by decide +kernel)
    (fun _ => C39_one_hole_in_order _ _ (by decide +kernel)) (by decide +kernel) (by decide +kernel)
    (by intro rows h; cases h) (distinct_small (by decide +kernel))
  obtain ⟨r, L, _, l1, l2, l3⟩ := h2 2 1 (by decide +kernel)
  refine ⟨h1, L, l2, l3.down, ?_, ?_⟩
  · exact (C02_dimension _ _ l3.basis).trans (by rw [C02_dimension_value]; decide +kernel)
  · rw [l3.energies, l1]
    decide +kernel

/-- Twelve electrons on 4 x 3 sites. -/
noncomputable def sweepTwelve : Data ℝ :=
  ⟨rectConf 4 3 1 0 0, ⟨-1, 2, 3, 4, 5, 6, 7, 8, 9, 10⟩, ⟨12, 1000, 0, 0, none⟩, ⟨true, true, true, false, false, false⟩, true⟩

/-- C113 fails: the results with one up spin and 11 down spins are lost. -/
example : ∃ L, (performConfigurations exEnv exactRuns emptyDir sweepTwelve).1.load (saveName 12 1 11 sweepTwelve.bools) = .ok L ∧
    L.config.nbeta = 1 := by
  obtain ⟨_, r, L, l1, l2, _⟩ := C113_overwritten exEnv exactRuns (fun _ => realLib_qr) (fun _ => realLib_rand) (fun _ => insertionRows_sort)
    emptyDir rfl sweepTwelve 4 3 1 (rectConf_ok 4 3 1 0 0 (by omega) (by omega) (by omega)) (by unfold Config.Full; decide +kernel)
    (fun _ => C39_one_hole_in_order _ _ (by decide +kernel)) (by decide +kernel) (by decide +kernel)
    (by intro rows h; cases h) 1 1 (by omega) (by omega) (by omega) (by decide +kernel)
  exact ⟨L, l1, l2.down⟩

/-- Two sites without holes, two eigenpairs, `dim_max` 4. -/
noncomputable def sweepFew : Data ℝ :=
  ⟨rectConf 2 1 1 0 0, ⟨-1, 2, 3, 4, 5, 6, 7, 8, 9, 10⟩, ⟨2, 1, 0, 4, none⟩, ⟨true, true, true, true, true, true⟩, true⟩

example : performConfigurations exEnv exactRuns emptyDir sweepFew = (emptyDir, .error (.py .indexError)) :=
  C113_too_many exEnv exactRuns realLib_qr emptyDir sweepFew 2 1 1 (rectConf_ok 2 1 1 0 0 (by omega) (by omega) (by omega))
    (by unfold Config.Full; decide +kernel) (by decide +kernel) (by decide +kernel) (by decide +kernel) rfl

end TJ
