/-
Exact conditions for properties about files and search spaces that the code satisfies only in part: C82, C89, C90, C113.
-/
import Verif.Props.DavidsonSpace
import Verif.Props.Files
import Verif.Props.Sweep

namespace TJ

/-- C89, exact condition: the results of the embeddings are saved and load back if and only if there was no initial guess. -/
theorem C89_saved_iff {K : Type} [Field K] [LinearOrder K] (fs : FileSys K) (hr : fs.root = true) (d : DataComputations K)
    (hn : d.config.nsites ≠ 0) (hh : CsrShape d.config.nbConf d.ham.data d.ham.indices d.ham.indptr) (dyn neel neigh : Bool) :
    (((savePeripheral fs d).2 = .ok () ∧
        ∃ L, (savePeripheral fs d).1.load (savedPeripheralFile d.config.nsites d.config.nalpha d.config.nbeta d.bools) = .ok L ∧ SameData L d) ↔
      d.diag.guess = none) ∧
    (((saveBlocks fs d dyn neel neigh).2 = .ok () ∧
        ∃ L, (saveBlocks fs d dyn neel neigh).1.load (savedBlocksFile dyn neel neigh d.config.nsites d.config.nalpha d.config.nbeta d.bools) =
          .ok L ∧ SameData L d) ↔ d.diag.guess = none) := by
  refine ⟨⟨fun h => ?_, fun hg => ?_⟩, ⟨fun h => ?_, fun hg => ?_⟩⟩
  · by_contra hg
    have := (C89_guess_empties_file fs hr d hn hg dyn neel neigh).1
    rw [h.1] at this
    cases this
  · obtain ⟨h1, ⟨L, h2, h3, _⟩, _⟩ := C89_peripheral_partial fs hr d hn hg hh
    exact ⟨h1, L, h2, h3⟩
  · by_contra hg
    have := (C89_guess_empties_file fs hr d hn hg dyn neel neigh).2.2.1
    rw [h.1] at this
    cases this
  · obtain ⟨h1, ⟨L, h2, h3, _⟩, _⟩ := C89_blocks_partial fs hr d hn hg hh dyn neel neigh
    exact ⟨h1, L, h2, h3⟩

/-- C90, exact condition: the embeddings find the results saved before, whatever else is in the directory, if and only if all switches of the names
are on. -/
theorem C90_found_iff {K : Type} [Field K] [LinearOrder K] (d : DataComputations K) (t : Times K) (ht : d.times = some t) (hn : d.config.nsites ≠ 0)
    (hh : CsrShape d.config.nbConf d.ham.data d.ham.indices d.ham.indptr) :
    (∀ fs : FileSys K, fs.root = true →
      ∃ L, (saveDataFs fs d).1.load (loadName d.config.nsites d.config.nalpha d.config.nbeta d.bools) = .ok L ∧ SameData L d) ↔
      d.bools.bt ∧ d.bools.bij ∧ d.bools.bSD ∧ d.bools.btN ∧ d.bools.bV := by
  refine ⟨fun h => ?_, fun hs fs hr => ?_⟩
  · by_contra hs
    obtain ⟨L, h1, _⟩ := h ⟨true, [], fun _ => none⟩ rfl
    rw [C90_other_switches _ d hs] at h1
    cases h1
  · obtain ⟨_, ⟨L, h1, h2, _⟩, _⟩ := C90_chain_partial fs hr d t ht hn hh hs
    exact ⟨L, h1, h2⟩

/-- C113, exact condition: after a sweep the file of every sector contains this sector if and only if the number of electrons satisfies
`DistinctNames`. -/
theorem C113_sectors_iff (E : Env) (R : Nat → RunLib) (hq : ∀ a, (R a).lin.ExactQr) (hrand : ∀ a d m, ((R a).lin.rand d m).length = m)
    (hs : ∀ a, RowSort (R a).srt) (fs : FileSys ℝ) (hr : fs.root = true) (D : Data ℝ) (nbh nbv nb : Nat) (hc : RectConf D.config nbh nbv nb)
    (hf : D.config.Full) (hh : D.config.nholes ≤ D.config.nsites) (ho : D.spinMult = true → HolesInOrder E.toSetSem D.config) (hst : 1 ≤ D.diag.stp)
    (hv : D.diag.count (D.config.nsites.choose D.config.nholes) ≤ D.config.nsites.choose D.config.nholes)
    (hg : ∀ rows, D.diag.guess = some rows → rows.length = D.config.nsites.choose D.config.nholes ∧
      (rows.headD []).length = D.diag.count (D.config.nsites.choose D.config.nholes)) :
    (∀ a b, a + b + D.config.nholes = D.config.nsites →
      ∃ L, (performConfigurations E R fs D).1.load (saveName D.config.nsites a b D.bools) = .ok L ∧ L.config.nbeta = b) ↔
      DistinctNames (D.config.nsites - D.config.nholes) := by
  constructor
  · intro h
    by_contra hd
    obtain ⟨_, a, b, L, h1, h2, h3⟩ := C113_always_overwritten E R hq hrand hs fs hr D nbh nbv nb hc hf hh ho hst hv hg hd
    obtain ⟨L', g1, g2⟩ := h a b h1
    rw [h2] at g1
    rw [Except.ok.inj g1] at h3
    exact h3 g2
  · intro hd a b hab
    obtain ⟨_, h, _⟩ := C113_sweep_partial E R hq hrand hs fs hr D nbh nbv nb hc hf hh ho hst hv hg hd
    obtain ⟨r, L, _, _, h1, h2⟩ := h a b hab
    exact ⟨L, h1, h2.down⟩

/-- C82, exact condition: with at least three times as many dimensions as requested states, the search space of an iteration after the first grows by the
number of states if and only if `dim_max` is at least the dimension plus that number. -/
theorem C82_growth_iff {K : Type} [Field K] [LinearOrder K] [IsStrictOrderedRing K] {d : Nat} (L : LinAlg K) (hq : L.ExactQr)
    (A : Matrix (Fin d) (Fin d) K) (nbVal : Nat) (h1 : 1 ≤ nbVal) (h3 : 3 * nbVal ≤ d)
    (guess : Option (List (Fin d → K))) (stp : Nat) (tol : K) (dimMax : Nat) (hm : dimMax = 0 ∨ nbVal ≤ dimMax) (r : DavidsonResult K d)
    (h : modifiedDavidson L A nbVal guess stp tol dimMax = .ok r) (k : Nat) (hk : k + 2 < r.trace.length) :
    r.trace[k + 2].length = min d (r.trace[k + 1].length + nbVal) ↔ d + nbVal ≤ dimMax := by
  constructor
  · intro hg
    by_contra hlt
    have e : min nbVal (if dimMax = 0 then d else dimMax) = nbVal := by split_ifs <;> omega
    have hr : (if dimMax = 0 then d else dimMax) < d + min nbVal (if dimMax = 0 then d else dimMax) := by
      rw [e]
      split_ifs <;> omega
    have a1 := C82_always_restarts L hq A nbVal guess stp tol dimMax hr r h k (by omega)
    have a2 := C82_always_restarts L hq A nbVal guess stp tol dimMax hr r h (k + 1) (by omega)
    rw [e] at a1 a2
    have a2 : r.trace[k + 2].length = min d (2 * nbVal) := a2
    rw [a1, a2] at hg
    omega
  · intro hd
    exact (C82_grows_partial L hq A nbVal guess stp tol dimMax hd (by omega) r h (k + 1) (by omega)).1

/-! ### Cases that meet the hypotheses -/

/-- The example of Props/Files has an initial guess. -/
example : ¬ ((savePeripheral exFs exSaved).2 = .ok () ∧
    ∃ L, (savePeripheral exFs exSaved).1.load (savedPeripheralFile 12 11 0 exSaved.bools) = .ok L ∧ SameData L exSaved) := by
  intro h
  have := ((C89_saved_iff exFs rfl exSaved (by decide) exSaved_shape true true true).1).1 h
  simp [exSaved] at this

/-- Its switches are not all on. -/
example : ¬ ∀ fs : FileSys ℚ, fs.root = true →
    ∃ L, (saveDataFs fs exSaved).1.load (loadName 12 11 0 exSaved.bools) = .ok L ∧ SameData L exSaved := fun h =>
  absurd ((C90_found_iff exSaved ⟨1, 2, 3⟩ rfl (by decide) exSaved_shape).1 h) (by decide)

/-- Twelve electrons: one of the files has the wrong sector. -/
example : ¬ ∀ a b : Nat, a + b + 0 = 12 →
    ∃ L, (performConfigurations exEnv exactRuns emptyDir sweepTwelve).1.load (saveName 12 a b sweepTwelve.bools) = .ok L ∧ L.config.nbeta = b := by
  have key := C113_sectors_iff exEnv exactRuns (fun _ => realLib_qr) (fun _ => realLib_rand) (fun _ => insertionRows_sort) emptyDir rfl sweepTwelve 4 3 1
    (rectConf_ok 4 3 1 0 0 (by omega) (by omega) (by omega)) (by unfold Config.Full; decide +kernel) (by decide +kernel)
    (fun _ => C39_one_hole_in_order _ _ (by decide +kernel)) (by decide +kernel) (by decide +kernel) (by intro rows h; cases h)
  have e : sweepTwelve.config.nsites = 12 := by decide +kernel
  have e' : sweepTwelve.config.nholes = 0 := rfl
  rw [e, e'] at key
  intro h
  exact key.1 h 1 1 1 (by decide) (by decide) (by decide +kernel) (by decide +kernel)

/-- A run with three search spaces in dimension 6 with `dim_max` 8: the third space has grown. -/
example (A : Matrix (Fin 6) (Fin 6) ℝ) : ∃ r, modifiedDavidson realLib A 2 none 3 (-1) 8 = .ok r ∧
    ∃ h : 0 + 2 < r.trace.length, r.trace[0 + 2].length = min 6 (r.trace[0 + 1].length + 2) := by
  obtain ⟨r, hr⟩ := davidsonLoop_ok realLib_qr (A := A) (nb := 2) (tol := -1) (dimMax := 8) (by omega) (stp := 2)
    (V := realLib.qr 6 (realLib.rand 6 2)) (last := none) (trace := []) (by rw [(realLib_qr 6 _).1, realLib_rand]; omega)
  have h : modifiedDavidson realLib A 2 none 3 (-1) 8 = .ok r := hr
  have hc : r.converged = false := by
    by_contra hcon
    have hcon : r.converged = true := by simpa using hcon
    obtain ⟨_, _, rs, _, _, _, t4, t5, _⟩ := davidsonLoop_result hr
    obtain ⟨_, _, _, n4, _⟩ := ritz_ok t4
    have := (t5.1 hcon) (rs[0]'(by omega)) (List.getElem_mem (by omega))
    have h0 : (0 : ℝ) ≤ realLib.norm (rs[0]'(by omega)) := Real.sqrt_nonneg _
    linarith
  obtain ⟨T, _, _, t1, _, _, _, _, t6⟩ := davidsonLoop_result hr
  have hT := t6 hc
  rw [List.nil_append] at t1
  have hl : r.trace.length = 3 := by rw [t1, List.length_cons, hT]
  exact ⟨r, h, by omega, (C82_growth_iff realLib realLib_qr A 2 (by omega) (by omega) none 3 (-1) 8 (by omega) r h 0 (by omega)).2 (by omega)⟩

end TJ
