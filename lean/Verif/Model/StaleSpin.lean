/-
The spin operators of interactions.py on a `Configuration` object whose attributes were changed after its construction: the loops
run over `range(configuration.nb_conf)`, the determinants are made from `configuration.nholes`, `nalpha` and `nbeta`.
-/
import Verif.Model.PhasePictures
import Verif.Model.Spin

namespace TJ

/-- interactions.py 639-656, `compute_S_plus_S_minus`, with the attribute `nb_conf` of the object in line 652. -/
def ConfigObj.sPlusSMinus {K : Type} [Add K] [Zero K] (S : SetSem) (o : ConfigObj) (v : List K) (sitePlus siteMinus : Nat) : Py (List K) :=
  (List.range o.nbConf).foldlM (sPlusSMinusStep S o.config v sitePlus siteMinus) (List.replicate v.length 0)

/-- interactions.py 658-676, `compute_S2`. -/
def ConfigObj.computeS2 {K : Type} [Field K] (S : SetSem) (o : ConfigObj) (v : List K) : Py (List K) :=
  (sitePairs o.config.nsites).foldlM (fun (w : List K) p => do
    let x ← o.sPlusSMinus S v p.1 p.2
    let y ← o.sPlusSMinus S v p.2 p.1
    pure (vadd w (vadd x y))) (v.map (fun x => s2Diag K o.config * x))

/-- interactions.py 678-694, `compute_S2_exp_val`; the norm is represented by its square. -/
def ConfigObj.computeS2ExpVal {K : Type} [Field K] [DecidableEq K] (S : SetSem) (o : ConfigObj) (v : List K) : Py K :=
  let n2 := vdot v v
  if n2 ≠ 0 then do
    let w ← o.computeS2 S v
    pure (vdot v w / n2)
  else .ok 0

end TJ
