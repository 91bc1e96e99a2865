/-
Model of the functions of /repo/latticeFunctions.py that no other modelled function calls.
-/
import Mathlib.Algebra.Field.Basic
import Verif.Model.Py

namespace TJ

/-- latticeFunctions.py 24-33, `compute_ms`. -/
def computeMs {K : Type} [Field K] (nalpha nbeta : Nat) : K := (nalpha : K) / 2 - (nbeta : K) / 2

/-- latticeFunctions.py 48-61, `build_K_matrix`. For `dim < 2` an `IndexError` is raised before a negative column index is used. -/
def buildKMatrix (dim : Nat) : Py NdMat := do
  let k ← (NdMat.zeros 4 dim).setEntry 0 0 1
  let k ← k.setEntry 1 1 1
  let k ← k.setEntry 2 (dim - 2) 1
  k.setEntry 3 (dim - 1) 1

/-- latticeFunctions.py 63-74, `build_L_matrix`. For `dim = 0` the first assignment raises `IndexError`. -/
def buildLMatrix (dim : Nat) : Py NdMat := do
  let l ← (NdMat.zeros dim 4).setEntry 0 1 1
  l.setEntry (dim - 1) 2 1

end TJ
