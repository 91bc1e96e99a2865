/-
The axes of the phase diagrams of `save_phase_space` (postProcessing.py 412-414 and 451-460).
-/
import Verif.Model.Phase
import Verif.Model.Dependance

namespace TJ

/-- postProcessing.py 412, 451, 460: `x[iX]`, the value of V/J at which column `iX` is drawn. -/
noncomputable def axisV (nbV iX : Nat) : ℝ := linspace 0 15 nbV iX

/-- postProcessing.py 413, 451, 460: `y[iY]`, the value of t/J at which row `iY` is drawn. -/
noncomputable def axisT (nbT iY : Nat) : ℝ := linspace (-5) 0 nbT iY

end TJ
