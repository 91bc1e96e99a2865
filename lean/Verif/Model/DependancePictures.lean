/-
Model of the files of `plot_spectrum_dependance` (postProcessing.py 181-368).
-/
import Verif.Model.Dependance
import Verif.Model.GeneratePlots

namespace TJ

/-- What a figure of curves shows. -/
def Drawn.line (x : Drawn) : List ℝ × Char × String := (x.ys, x.colour, x.style)

/-- postProcessing.py 342-349 (360-367): a figure is saved with the ending .png and with .pdf; after an `OSError` the directory is made and
both are saved again. `suffix` is empty for the first figure and `-extended` for the second. -/
noncomputable def saveCurves (p : Pictures ℝ) (c : Config) (suffix : List Char) (fig : List Drawn) : Pictures ℝ × Except IoErr Unit :=
  let dir := latticeDir c.nsites
  let name := fun ext => pictureName c.nsites c.nalpha c.nbeta (suffix ++ ext)
  let x : Picture ℝ := .curves (fig.map Drawn.line)
  let both := fun (p : Pictures ℝ) => andThen (p.savefig (dir ++ "/ParametrizedSpectrum".toList) (name ".png".toList) x)
    (fun p => p.savefig (dir ++ "/ParametrizedSpectrum".toList) (name ".pdf".toList) x)
  match both p with
  | (p, .error .os) => andThen (p.mkdir dir "/ParametrizedSpectrum".toList) both
  | r => r

/-- postProcessing.py 181-368, `plot_spectrum_dependance` with the files: first all diagonalisations (197-242), the exchanges (248-325) and the
curves of the first figure (332-340); it is saved (342-349) before the curves of the second are drawn (351-359). -/
noncomputable def dependancePictures (fuel : Nat) (E : Env) (L : Nat → Bool → LinAlg ℝ) (swap : List ℝ → Bool) (D : Data ℝ) (n : Nat)
    (p : Pictures ℝ) : Pictures ℝ × Except IoErr Unit :=
  compute p (do
    let (c, c') ← dependanceSweep E L swap D n n
    let c ← reorganise fuel c 0
    let c' ← reorganise fuel c' 0
    let fig1 ← drawCurves n D.diag.nbVal c
    return (fig1, c')) fun r =>
  andThen (saveCurves p D.config [] r.1) fun p =>
  compute p (drawCurves n D.diag.nbVal r.2) fun fig2 => saveCurves p D.config "-extended".toList fig2

end TJ
