/-
Model of `compute_spin_and_multiplicity` (davidson.py 345-366) and of the computations of
`save_phase_space` (postProcessing.py 370-476); the plots themselves are not modelled.
-/
import Verif.Model.Observables
import Verif.Model.Interactions

namespace TJ

/-- interactions.py 678-694, `compute_S2_exp_val` on an arbitrary object: a non-zero vector leads to
`configuration.nalpha` in `compute_S2` (interactions.py 667-669). -/
def s2ExpValObj {K : Type} [Field K] [DecidableEq K] (S : SetSem) (o : PyObj) (v : List K) : Py K :=
  if vdot v v ≠ 0 then do
    let c ← o.asConfig
    computeS2ExpVal S c v
  else .ok 0

/-- davidson.py 345-366, `compute_spin_and_multiplicity`; `o` is the argument `basis`. -/
def computeSpinAndMultiplicity {K : Type} [Field K] [LinearOrder K] (S : SetSem) (o : PyObj) (eigvects : List (List K)) :
    Py (List K × List (Option String)) := do
  let spins ← eigvects.mapM (s2ExpValObj S o)
  return (spins, spins.map computeSpinMultiplicity)

/-- What the call of line 436 can do. -/
inductive CallError
  | linAlgError
  | typeError
  deriving DecidableEq

/-- postProcessing.py 436: `modified_davidson_algorithm(ham, nb_state, stp, tol, dim_max)`, whose third
parameter is `initial_guess` (davidson.py 229). So `initial_guess` is the integer `stp`, the number of
steps is the float `tol`, the tolerance is `dim_max`, and the limit `dim_max` has its default value 0,
replaced by the dimension (davidson.py 245-246). With `nb_val > 1` numpy's `qr` refuses the number
(`LinAlgError`), otherwise `range` refuses the float (`TypeError`). -/
def davidsonShifted (dim nbState : Nat) : CallError :=
  if min nbState dim > 1 then .linAlgError else .typeError

/-- postProcessing.py 424-430: the couplings at a point of the grid. The point is given by its
indices: the values of `x` and `y` are not used. -/
def phaseCouplings {K : Type} [Field K] (I : Interactions K) (iX iY : Nat) : Interactions K :=
  let t : K := -(iY : K) * I.J
  let v : K := (iX : K) * I.J
  { I with t := t, tNNN := -13 * t / 55, tnNNN := 36 * t / 55, VNN := v, VNNNper := (79 / 177) * v }

/-- postProcessing.py 423-447: the values `(Zval[iY, iX], Zspin[iY, iX])`. The value returned by the
call would be used in lines 437-444, but the call never returns. -/
def phasePoint {K : Type} [Field K] (E : Env) (c : Config) (I : Interactions K) (b : BoolInteractions) (dets : List (List Nat))
    (nbState iX iY : Nat) : Py (K × K) := do
  let ham ← buildHamiltonian E c (phaseCouplings I iX iY) dets b
  match davidsonShifted ham.dim nbState with
  | .linAlgError => .ok (0, 0)
  | .typeError => .error .typeError

/-- postProcessing.py 403-447: the grid of one sector, in the order of the loops. `X` and `Y` come from
`np.meshgrid(x, y)`, so both have `nb_t` rows and both loops have `nb_t` steps; `nb_v` does not matter. -/
def phaseSector {K : Type} [Field K] (E : Env) (c : Config) (I : Interactions K) (b : BoolInteractions)
    (nbState nbT _nbV : Nat) : Py (List (List (K × K))) := do
  let dets ← constructBasis c
  (List.range nbT).mapM (fun iX => (List.range nbT).mapM (fun iY => phasePoint E c I b dets nbState iX iY))

/-- postProcessing.py 370-474, `save_phase_space`: the values of all sectors. Lines 403-404 change the
configuration of `data` in place; `nalpha` is computed from `nbeta` in the model, with the same value. -/
def savePhaseSpace {K : Type} [Field K] (E : Env) (c : Config) (I : Interactions K) (b : BoolInteractions)
    (nbState nbT nbV : Nat) : Py (List (List (List (K × K)))) :=
  (List.range (c.nsites + 1 - c.nholes)).mapM (fun nalpha =>
    phaseSector E { c with nbeta := c.nsites - c.nholes - nalpha } I b nbState nbT nbV)

end TJ
