/-
C114, exact condition: after a sweep, `generate_plots` ends without an exception exactly if the pictures of the holes are not asked for or
there is no hole.
-/
import Verif.Props.GeneratePlots

namespace TJ

/-- C114. After a sweep as in `C114_pictures_partial`, `generate_plots` ends without exception exactly if the pictures of the holes are not asked for or
there is no hole. -/
theorem C114_ends_iff (E : Env) (R : Nat → RunLib) (hq : ∀ a, (R a).lin.ExactQr) (hrand : ∀ a d m, ((R a).lin.rand d m).length = m)
    (hs : ∀ a, RowSort (R a).srt) (fs : FileSys ℝ) (hr : fs.root = true) (D : Data ℝ)
    (hc : RectConf D.config D.config.nbh D.config.nbv D.config.nblocs) (hf : D.config.Full) (hh : D.config.nholes ≤ D.config.nsites)
    (ho : D.spinMult = true → HolesInOrder E.toSetSem D.config) (hst : 1 ≤ D.diag.stp)
    (hv : D.diag.count (D.config.nsites.choose D.config.nholes) ≤ D.config.nsites.choose D.config.nholes)
    (hg : ∀ rows, D.diag.guess = some rows → rows.length = D.config.nsites.choose D.config.nholes ∧
      (rows.headD []).length = D.diag.count (D.config.nsites.choose D.config.nholes)) (h10 : DistinctNames (D.config.nsites - D.config.nholes))
    (o : InputPlotting) (hemb : o.embedding.neel = false ∧ o.embedding.stat = false ∧ o.embedding.dyn = false)
    (hpl : o.determinants = true → 4 ≤ o.nbPlot) (p : Pictures ℝ) (hp : PictureDirs D.config.nsites o p.dirs) :
    (generatePlots (performConfigurations E R fs D).1 D.config D.bools o p).2 = .ok () ↔ o.holes = false ∨ D.config.nholes = 0 := by
  constructor
  · intro h
    by_contra hcon
    push Not at hcon
    obtain ⟨h1, h2⟩ := hcon
    obtain ⟨e, he, _⟩ := C114_stops_anyway (performConfigurations E R fs D).1 D.config hh (Nat.pos_of_ne_zero h2) D.bools o
      (by simpa using h1) p
    rw [h] at he
    cases he
  · intro h
    obtain ⟨P, h1, _⟩ := C114_pictures_partial E R hq hrand hs fs hr D hc hf hh ho hst hv hg h10 o hemb h hpl p hp
    rw [h1]

/-- The square with one hole: the plots end without the pictures of the holes and not with them. -/
example (b : Bool) : (generatePlots (performConfigurations exEnv exactRuns emptyDir sweepData).1 sweepData.config sweepData.bools (mainPlots b)
    pictureTree).2 = .ok () ↔ b = false := by
  have hc : RectConf sweepData.config sweepData.config.nbh sweepData.config.nbv sweepData.config.nblocs :=
    rectConf_ok 2 2 1 1 0 (by omega) (by omega) (by omega)
  have hf : sweepData.config.Full := by unfold Config.Full; decide +kernel
  have ho : sweepData.spinMult = true → HolesInOrder exEnv.toSetSem sweepData.config := fun _ => C39_one_hole_in_order _ _ (by decide +kernel)
  rw [C114_ends_iff exEnv exactRuns (fun _ => realLib_qr) (fun _ => realLib_rand) (fun _ => insertionRows_sort) emptyDir
    rfl sweepData hc hf (by decide +kernel) ho (by decide +kernel) (by decide +kernel) (by intro rows h; cases h) (distinct_small (by decide +kernel))
    (mainPlots b) ⟨rfl, rfl, rfl⟩ (fun _ => le_rfl) pictureTree (mainPlots_dirs b)]
  have h1 : sweepData.config.nholes ≠ 0 := by decide +kernel
  have h2 : (mainPlots b).holes = b := rfl
  rw [h2]
  simp [h1]

end TJ
